/-
The factorization of `plasma_omp_zhetrf` and `plasma_omp_zhesv`: the Aasen factorization and the band factorization of `T`, whose tasks are
created one after the other without a `taskwait` between (compute/zhetrf.c:322-324, compute/zhesv.c:342-343).
-/
import Verif.AasenExec
import Verif.HetrsGood
import Verif.GbtrfGood

set_option linter.unusedSectionVars false

namespace Verif.Tile

universe u v

/-- Two parts of a program; conflicts between them are direct dependences. -/
theorem TCovered.join {M : Type u} {α : Type v} {P Q : List (TTask M α)} (hP : TCovered P) (hQ : TCovered Q)
    (h : ∀ t ∈ P, ∀ t' ∈ Q, TConflict t t' → TDepOn t t') : TCovered (P ++ Q) := by
  intro i j t t' hij hi hj hc
  rcases Nat.lt_or_ge j P.length with hj1 | hj1
  · rw [List.getElem?_append_left hj1] at hj
    rw [List.getElem?_append_left (by omega)] at hi
    exact ttrans_append_left _ (hP i j t t' hij hi hj hc)
  · rcases Nat.lt_or_ge i P.length with hi1 | hi1
    · have hi' := hi
      have hj' := hj
      rw [List.getElem?_append_left hi1] at hi'
      rw [List.getElem?_append_right hj1] at hj'
      exact Relation.TransGen.single ⟨hij, t, t', hi, hj, h t (List.mem_of_getElem? hi') t' (List.mem_of_getElem? hj') hc⟩
    · rw [List.getElem?_append_right hj1] at hj
      rw [List.getElem?_append_right hi1] at hi
      have := ttrans_append_right P (hQ (i - P.length) (j - P.length) t t' (by omega) hi hj hc)
      rwa [Nat.add_sub_cancel' hi1, Nat.add_sub_cancel' hj1] at this

end Verif.Tile

namespace Verif.Aasen

open Verif.Tile Verif.Layout Verif.LU Verif.Panel Finset

universe u v w

section
variable {M : Type u} [DecidableEq M] {α : Type v} [Field α] [StarRing α] [DecidableEq α] {γ : Type w}
  [LinearOrder γ] {b N kl ku : Nat} {E : IntCode α} {A P : TMat M} {mag : α → γ} {dv : α → α → α} {big : α → Bool}
  {ib mpt : Nat} {env : M → MatEnv}

/-- Rows of the tiles that a task of the band factorization touches. -/
theorem gbLab_rows (h : GbOK b N kl ku A P ib mpt) {rg : Bool} {l : Nat × Nat} (hl : l ∈ gbLabs A)
    {m c i j : Nat}
    (hx : (gbLab rg E mag dv big ib mpt A P l).rd (A.at' m c) i j ∨ (gbLab rg E mag dv big ib mpt A P l).wr (A.at' m c) i j) :
    l.1 ≤ m ∧ m < l.1 + A.d.klt := by
  obtain ⟨k, n⟩ := l
  obtain ⟨hk, hl⟩ := mem_gbLabs.mp hl
  simp only at hk hl
  have hb := h.a.pos
  have hk' : k < A.d.mt := by omega
  have hmak := h.mak hk'
  have hklt := h.kltb k
  have hkl0 := h.klt_pos
  have hne : ∀ {R : Nat → Nat → Prop}, ¬ P.reg R (A.at' m c) i j := fun hx => h.ne hx.1
  have hrow : ∀ {R : Nat → Nat → Prop}, (∀ r c, R r c → k * b ≤ r ∧ r < k * b + gbMak A k) → A.reg R (A.at' m c) i j →
      k ≤ m ∧ m < k + A.d.klt := by
    intro R hR hx
    obtain ⟨r, c', hr, e⟩ := reg_tile h.a hx
    obtain ⟨h1, h2⟩ := hR r c' hr
    obtain ⟨rfl, -⟩ := TMat.at'_inj.mp e
    refine ⟨(Nat.le_div_iff_mul_le hb).mpr h1, (Nat.div_lt_iff_lt_mul hb).mpr ?_⟩
    omega
  unfold gbLab at hx
  simp only at hx ⊢
  by_cases e1 : n = k
  · rw [if_pos e1] at hx
    rcases hx with hx | hx | hx
    · exact hx.elim
    · exact hrow (fun r c hr => by rw [h.a.mb] at hr; exact ⟨hr.1, hr.2.1⟩) hx
    · exact absurd hx hne
  · rw [if_neg e1] at hx
    by_cases e2 : n < A.d.nt
    · rw [if_pos e2] at hx
      have key : ∀ t ∈ gbUpdBody E dv A P k n, t.rd (A.at' m c) i j ∨ t.wr (A.at' m c) i j → k ≤ m ∧ m < k + A.d.klt := by
        intro t ht hx
        unfold gbUpdBody at ht
        simp only [List.cons_append, List.nil_append, List.mem_cons, List.mem_flatMap, List.not_mem_nil, or_false] at ht
        rcases ht with rfl | rfl | ⟨q, hq, rfl⟩
        · rcases hx with hx | hx
          · exact absurd hx (hne (R := fun i j => k * A.d.mb ≤ i ∧ i < min (k * A.d.mb + A.d.mb) A.d.m ∧ j = 0))
          · exact hrow (R := fun r c => k * A.d.mb ≤ r ∧ r < k * A.d.mb + gbMak A k ∧ n * A.d.nb ≤ c ∧ c < n * A.d.nb + A.d.nview n)
              (fun r c hr => by rw [h.a.mb] at hr; exact ⟨hr.1, hr.2.1⟩) hx
        · rcases hx with ⟨e, _⟩ | ⟨e, _⟩
          · obtain ⟨rfl, -⟩ := TMat.at'_inj.mp e; omega
          · obtain ⟨rfl, -⟩ := TMat.at'_inj.mp e; omega
        · rw [mem_span] at hq
          rcases hx with (⟨e, _⟩ | ⟨e, _⟩) | ⟨e, _⟩
          · obtain ⟨rfl, -⟩ := TMat.at'_inj.mp e; omega
          · obtain ⟨rfl, -⟩ := TMat.at'_inj.mp e; omega
          · obtain ⟨rfl, -⟩ := TMat.at'_inj.mp e; omega
      rcases hx with hx | hx
      · obtain ⟨t, ht, hr⟩ := hx
        exact key t ht (Or.inl hr)
      · obtain ⟨t, ht, hr⟩ := hx
        exact key t ht (Or.inr hr)
    · rw [if_neg e2] at hx
      rcases hx with hx | hx
      · exact hx.elim
      · exact absurd hx (hne (R := fun i j => 0 < k ∧ k * A.d.mb ≤ i ∧
          i < k * A.d.mb + min (gbMak A k) (A.d.nview k) ∧ j = 0))

variable {z : AC} {Z : AM M} {Q : TMat M}

/-- The copy to the band matrix writes three tiles. -/
theorem copyTT_wr {k : Nat} {x : M × Nat × Nat} {i j : Nat} (hT : x.1 = Z.T.id) (hw : Z.W.id ≠ Z.T.id)
    (h : (copyTT (α := α) z Z k).rd x i j ∨ (copyTT (α := α) z Z k).wr x i j) :
    ∃ m, x = Z.g m k ∧ (m = k ∨ m = k + 1 ∨ m + 1 = k) ∧ (x, true) ∈ (copyTT (α := α) z Z k).deps := by
  have hd : (copyTT (α := α) z Z k).deps = [(Z.t z k (k - 1), false), (Z.t z k k, false), (Z.t z (min (k + 1) (z.mt - 1)) k, false),
      (Z.g (k - 1) k, true), (Z.g k k, true), (Z.g (min (k + 1) (z.mt - 1)) k, true), (Z.g (k - (Z.T.d.kut - 1)) k, true)] := rfl
  rw [hd]
  have ht : ∀ m n, x ≠ Z.t z m n := by
    rintro m n rfl
    exact hw hT
  have key : ∀ t ∈ ([kCp (α := α) (z.mv k) (z.mv k) (Z.t z k k) (Z.g k k)] ++
     (if k + 1 < z.mt then [kCp (z.mv (k + 1)) (z.mv k) (Z.t z (k + 1) k) (Z.g (k + 1) k)] else []) ++
     (if 0 < k then [kCpC (z.mv k) (z.mv (k - 1)) (Z.t z k (k - 1)) (Z.g (k - 1) k)] else [])),
      t.rd x i j ∨ t.wr x i j → ∃ m, x = Z.g m k ∧ (m = k ∨ m = k + 1 ∨ m + 1 = k) ∧
        (x, true) ∈ [(Z.t z k (k - 1), false), (Z.t z k k, false), (Z.t z (min (k + 1) (z.mt - 1)) k, false),
      (Z.g (k - 1) k, true), (Z.g k k, true), (Z.g (min (k + 1) (z.mt - 1)) k, true), (Z.g (k - (Z.T.d.kut - 1)) k, true)] := by
    intro t htm hx
    simp only [List.mem_append, List.mem_singleton] at htm
    rcases htm with (rfl | htm) | htm
    · rcases hx with (⟨e, _⟩ | ⟨e, _⟩) | ⟨e, _⟩
      · exact absurd e (ht _ _)
      · exact absurd e (ht _ _)
      · subst e; exact ⟨k, rfl, Or.inl rfl, by simp⟩
    · split at htm
      · rename_i h1
        rw [List.mem_singleton] at htm; subst htm
        have e1 : min (k + 1) (z.mt - 1) = k + 1 := by omega
        rcases hx with (⟨e, _⟩ | ⟨e, _⟩) | ⟨e, _⟩
        · exact absurd e (ht _ _)
        · exact absurd e (ht _ _)
        · subst e; exact ⟨k + 1, rfl, Or.inr (Or.inl rfl), by simp [e1]⟩
      · cases htm
    · split at htm
      · rw [List.mem_singleton] at htm; subst htm
        rcases hx with (⟨e, _⟩ | ⟨e, _⟩) | ⟨e, _⟩
        · exact absurd e (ht _ _)
        · exact absurd e (ht _ _)
        · subst e; exact ⟨k - 1, rfl, Or.inr (Or.inr (by omega)), by simp⟩
      · cases htm
  rcases h with h | h
  · obtain ⟨t, htm, hr⟩ := h
    exact key t htm (Or.inl hr)
  · obtain ⟨t, htm, hr⟩ := h
    exact key t htm (Or.inr hr)

/-- Conflicts between the Aasen factorization and the band factorization are direct dependences. -/
theorem aasen_gb_dep (hz : z.OK) (hZ : AMOK z Z) (hg : GbOK z.b z.N z.b z.b Z.T Q ib mpt) {rg : Bool}
    (hon : ∀ k, k < Z.T.d.mt → gbSec rg Z.T k = true) (hq : Q.id ≠ Z.A.id ∧ Q.id ≠ Z.W.id ∧ Q.id ≠ Z.P.id)
    {l : ALab} (hl : l ∈ aLabs (α := α) dv z Z) {l' : Nat × Nat} (hl' : l' ∈ gbLabs Z.T)
    (hc : TConflict (aTask E mag dv big z Z l) (gbLab rg E mag dv big ib mpt Z.T Q l')) :
    TDepOn (aTask E mag dv big z Z l) (gbLab rg E mag dv big ib mpt Z.T Q l') := by
  obtain ⟨x, i, j, hc⟩ := hc
  have h1 : (aTask E mag dv big z Z l).rd x i j ∨ (aTask E mag dv big z Z l).wr x i j := by tauto
  have h2 : (gbLab rg E mag dv big ib mpt Z.T Q l').rd x i j ∨ (gbLab rg E mag dv big ib mpt Z.T Q l').wr x i j := by tauto
  have f2 := gbLab_foot hg hl' h2
  have f1 := (aTask_ft hz hZ hl).1 x i j h1
  have hxT : x.1 = Z.T.id := by
    rcases f2 with rfl | ⟨m, rfl, _⟩ | ⟨m, rfl, _⟩
    · rcases f1 with ⟨m', c', e, _⟩ | ⟨q', e, _⟩ | ⟨e, _⟩ | ⟨e, _⟩
      · exact absurd (congrArg Prod.fst e) hq.1
      · exact absurd (congrArg Prod.fst e) hq.2.1
      · exact absurd e.symm hg.ne
      · exact absurd (congrArg Prod.fst e) hq.2.2
    · rfl
    · rfl
  have hst : l.2.1 = 10 := by
    rcases f1 with ⟨m', c', e, _⟩ | ⟨q', e, _⟩ | ⟨_, e⟩ | ⟨e, _⟩
    · exact absurd ((congrArg Prod.fst e).symm.trans hxT) hZ.at'
    · exact absurd ((congrArg Prod.fst e).symm.trans hxT) hZ.tw.symm
    · exact e
    · exact absurd ((congrArg Prod.fst e).symm.trans hxT) hZ.tp.symm
  obtain ⟨k, st, q⟩ := l
  simp only at hst
  subst hst
  have hk : k < z.mt := (mem_aLabs.mp hl).1
  obtain ⟨m, rfl, hm, hd⟩ := copyTT_wr hxT hZ.tw.symm (show (copyTT (α := α) z Z k).rd x i j ∨ (copyTT (α := α) z Z k).wr x i j from h1)
  have hrows := gbLab_rows hg hl' h2
  have hklt : Z.T.d.klt = 2 := by
    rw [hg.klt]
    have hb := hz.b
    have : (z.b + z.b - 1) / z.b = 1 := by
      refine Nat.div_eq_of_lt_le ?_ ?_ <;> omega
    omega
  obtain ⟨j', n⟩ := l'
  obtain ⟨hj, hn⟩ := mem_gbLabs.mp hl'
  simp only at hj hn hrows f2
  rw [hklt] at hrows
  have hmt : Z.T.d.mt = z.mt := by rw [hg.a.mt_eq, hg.m]; rfl
  have eg : ∀ m n, Z.g m n = Z.T.at' m n := fun _ _ => rfl
  have hdd : ∀ m, m = k ∨ m + 1 = k → (Z.T.at' m k, true) ∈ (aTask E mag dv big z Z (k, 10, q)).deps := by
    intro m hm
    show (Z.g m k, true) ∈ [(Z.t z k (k - 1), false), (Z.t z k k, false), (Z.t z (min (k + 1) (z.mt - 1)) k, false),
      (Z.g (k - 1) k, true), (Z.g k k, true), (Z.g (min (k + 1) (z.mt - 1)) k, true), (Z.g (k - (Z.T.d.kut - 1)) k, true)]
    rcases hm with rfl | hm
    · simp
    · have : m = k - 1 := by omega
      subst this; simp
  rcases f2 with e | ⟨m', e, g1, _⟩ | ⟨m', e, g1, g2⟩
  · exact absurd (congrArg Prod.fst e) hg.ne
  · -- column of the panel
    have hkj : k = j' := (TMat.at'_inj.mp e).2
    subst hkj
    refine Or.inr ⟨_, hdd k (Or.inl rfl), (Z.T.at' k k, decide (n = k)), ?_, rfl, Or.inl rfl⟩
    have hsec := hon k (by omega)
    unfold gbLab
    simp only
    by_cases e1 : n = k
    · rw [if_pos e1]
      show _ ∈ gbPanelDeps rg Z.T Q k
      simp [gbPanelDeps, gsec, hsec, e1]
    · rw [if_neg e1, if_pos g1]
      show _ ∈ gbUpdDeps rg Z.T Q k n
      simp [gbUpdDeps, gsec, hsec, e1]
  · -- column of an update
    have hkn : k = n := (TMat.at'_inj.mp e).2
    subst hkn
    have hdu : ∀ m, m = j' ∨ m = j' + 1 → (Z.T.at' m k, true) ∈ (gbLab rg E mag dv big ib mpt Z.T Q (j', k)).deps := by
      intro m hm
      unfold gbLab
      simp only
      rw [if_neg (by omega), if_pos g2]
      show _ ∈ gbUpdDeps rg Z.T Q j' k
      rcases hm with rfl | rfl
      · simp [gbUpdDeps]
      · have hsec := hon (j' + 1) (by omega)
        simp [gbUpdDeps, gsec, hsec]
    rcases hm with rfl | rfl | hm
    · exact Or.inr ⟨_, hdd m (Or.inl rfl), _, hdu m (by omega), rfl, Or.inl rfl⟩
    · omega
    · exact Or.inr ⟨_, hdd m (Or.inr hm), _, hdu m (by omega), rfl, Or.inl rfl⟩

/-- The two factorizations (compute/zhetrf.c:322-324, compute/zhesv.c:342-343). -/
noncomputable def hetrfL (rg : Bool) (E : IntCode α) (mag : α → γ) (dv : α → α → α) (big : α → Bool) (ib mpt : Nat) (z : AC) (Z : AM M)
    (Q : TMat M) : List (GTTask (M × Nat × Nat) α) :=
  pzhetrfAasen E mag dv big z Z ++ pzgbtrf rg E mag dv big ib mpt Z.T Q

theorem hetrfL_good (hz : z.OK) (hZ : AMOK z Z) (hF : AFit env z Z) (hg : GbFit env z.b z.N z.b z.b Z.T Q ib mpt) {rg : Bool}
    (hon : ∀ k, k < Z.T.d.mt → gbSec rg Z.T k = true) (hq : Q.id ≠ Z.A.id ∧ Q.id ≠ Z.W.id ∧ Q.id ≠ Z.P.id) :
    GoodC (evalid env) (tasks (hetrfL rg E mag dv big ib mpt z Z Q)) := by
  have h1 := aasen_good (E := E) (mag := mag) (dv := dv) (big := big) hz hZ hF
  have h2 := pzgbtrf_good (E := E) (mag := mag) (dv := dv) (big := big) hg (rg := rg) (fun k _ hk => hon k hk)
  unfold hetrfL
  rw [tasks_append]
  refine ⟨fun t ht => (List.mem_append.mp ht).elim (h1.loc t) (h2.loc t), fun t ht => (List.mem_append.mp ht).elim (h1.ins t) (h2.ins t), ?_⟩
  refine h1.cov.join h2.cov ?_
  rw [prog_labs, pzgbtrf_labs]
  intro t ht t' ht'
  obtain ⟨l, hl, rfl⟩ := List.mem_map.mp ht
  obtain ⟨l', hl', rfl⟩ := List.mem_map.mp ht'
  exact aasen_gb_dep hz hZ hg.ok hon hq hl hl'

theorem hetrfL_codeOK (hz : z.OK) (hZ : AMOK z Z) (hg : GbOK z.b z.N z.b z.b Z.T Q ib mpt) (rg : Bool) :
    CodeOK (hetrfL rg E mag dv big ib mpt z Z Q) :=
  (aasen_codeOK hz hZ).append (pzgbtrf_codeOK hg rg)

end

end Verif.Aasen

/-
C86: what a failing `plasma_zpotrf` leaves in the matrix.
-/
import Verif.Props.PosvFail
import Verif.Partial

namespace Verif.Props

open Verif.Sched Verif.Tile Verif.Layout Finset

universe u v

section
variable {M : Type u} {𝕜 : Type v} [RCLike 𝕜] [DecidableEq 𝕜] {A : TMat M} {b N : Nat} {dv : 𝕜 → 𝕜 → 𝕜}
  {pk : Uplo → Nat → Tl 𝕜 → Tl 𝕜} {info : Uplo → Nat → Tl 𝕜 → Nat} {u : Uplo}

/-- Number of tasks before step `k`. -/
noncomputable def pkOff (pk : Uplo → Nat → Tl 𝕜 → Tl 𝕜) (info : Uplo → Nat → Tl 𝕜 → Nat) (dv : 𝕜 → 𝕜 → 𝕜) (u : Uplo) (A : TMat M) (b N k : Nat) : Nat :=
  ((List.range k).flatMap (pkStep pk info dv u A b N)).length

theorem range_split {k K : Nat} (h : k < K) : List.range K = List.range k ++ k :: (List.range (K - k - 1)).map (k + 1 + ·) := by
  have : K = k + (1 + (K - k - 1)) := by omega
  conv_lhs => rw [this]
  rw [List.range_add, List.range_add]
  simp [Function.comp_def, Nat.add_assoc]

theorem pzpotrf_split (hA : A.Al b) (hm : A.d.m = N) (hn : A.d.n = N) {k : Nat} (hk : k < ceilDiv N b) :
    pzpotrf pk info dv u A = (List.range k).flatMap (pkStep pk info dv u A b N) ++ (pkStep pk info dv u A b N k ++
      ((List.range (ceilDiv N b - k - 1)).map (k + 1 + ·)).flatMap (pkStep pk info dv u A b N)) := by
  rw [pzpotrf_eq hA hm hn, range_split hk, List.flatMap_append, List.flatMap_cons]

/-- Task `j` of step `k`. -/
theorem pzpotrf_get (hA : A.Al b) (hm : A.d.m = N) (hn : A.d.n = N) {k : Nat} (hk : k < ceilDiv N b) {j : Nat} {t : GTTask (M × Nat × Nat) 𝕜}
    (h : (pkStep pk info dv u A b N k)[j]? = some t) : (pzpotrf pk info dv u A)[pkOff pk info dv u A b N k + j]? = some t := by
  rw [pzpotrf_split hA hm hn hk, pkOff, List.getElem?_append_right (by omega), Nat.add_sub_cancel_left, List.getElem?_append_left, h]
  exact (List.getElem?_eq_some_iff.mp h).1

/-- Every tile of the columns from `k` on is written by a task that follows the factorization of the `k`-th diagonal tile, or is that task. -/
theorem pzpotrf_after (hA : A.Al b) (hm : A.d.m = N) (hn : A.d.n = N) {k : Nat} (hk : k < ceilDiv N b) {r c : Nat} (ht : inTri u r c) (hr : r < N) (hc : c < N)
    (hkr : k ≤ r / b) (hkc : k ≤ c / b) :
    ∃ j t, (pzpotrf pk info dv u A)[j]? = some t ∧ t.task.wr (A.at' (r / b) (c / b)) (r % b) (c % b) ∧
      (j = pkOff pk info dv u A b N k ∨ Relation.TransGen (TEdge (tasks (pzpotrf pk info dv u A))) (pkOff pk info dv u A b N k) j) := by
  have hb := hA.pos
  have htr : r % b < tdim N b (r / b) := by rw [tdim_row]; exact ⟨Nat.mod_lt _ hb, by rw [divmod]; exact hr⟩
  have htc : c % b < tdim N b (c / b) := by rw [tdim_row]; exact ⟨Nat.mod_lt _ hb, by rw [divmod]; exact hc⟩
  have hrb : r / b < ceilDiv N b := by rw [lt_ceilDiv hb]; exact lt_of_le_of_lt (Nat.div_mul_le_self _ _) hr
  have hcb : c / b < ceilDiv N b := by rw [lt_ceilDiv hb]; exact lt_of_le_of_lt (Nat.div_mul_le_self _ _) hc
  obtain ⟨p, hp⟩ : ∃ p : Nat × Nat, p = if u = .lower then (r / b, c / b) else (c / b, r / b) := ⟨_, rfl⟩
  have hpt : A.at' (r / b) (c / b) = pt u A p := by rw [hp]; cases u <;> simp [pt]
  have hp21 : p.2 ≤ p.1 := by
    rw [hp]; cases u
    · simpa using Nat.div_le_div_right (c := b) ht
    · simpa using Nat.div_le_div_right (c := b) ht
  have hkp : k ≤ p.2 := by rw [hp]; cases u <;> simpa
  have hpK : p.1 < ceilDiv N b := by rw [hp]; cases u <;> simpa
  have hbox : r % b < pr u (tdim N b p.1) b ∧ c % b < pr u b (tdim N b p.1) := by
    rw [hp]; cases u
    · simp only [pr, reduceCtorEq, if_false]; exact ⟨Nat.mod_lt _ hb, htc⟩
    · simp only [pr, if_true]; exact ⟨htr, Nat.mod_lt _ hb⟩
  have htri : p.2 = p.1 → tri u (tdim N b p.1) (r % b) (c % b) := by
    intro e
    have e' : r / b = c / b := by
      rw [hp] at e; cases u
      · simpa using e
      · simpa using e.symm
    have h1 : p.1 = r / b := by rw [hp]; cases u <;> simp [e']
    refine ⟨by rw [h1]; exact htr, by rw [h1, e']; exact htc, ?_⟩
    have k1 := Nat.div_add_mod r b
    have k2 := Nat.div_add_mod c b
    rw [e'] at k1
    cases u
    · have : r ≤ c := ht
      show r % b ≤ c % b
      omega
    · have : c ≤ r := ht
      show c % b ≤ r % b
      omega
  rw [hpt]
  by_cases hkk : p = (k, k)
  · subst hkk
    have e := pzpotrf_get (pk := pk) (info := info) (dv := dv) (u := u) hA hm hn hk (j := 0) (t := _) rfl
    exact ⟨_, _, e, ⟨rfl, htri rfl⟩, Or.inl rfl⟩
  have hidx : ∀ q ∈ pkIdx (ceilDiv N b) k, ∃ j : Nat, (pkIdx (ceilDiv N b) k)[j]? = some q ∧
      (pzpotrf pk info dv u A)[pkOff pk info dv u A b N k + (j + 1)]? = some ⟨pkTask dv u A b N k q, true, fun _ => 0⟩ := by
    intro q hq
    obtain ⟨j, hj⟩ := List.mem_iff_getElem?.mp hq
    refine ⟨j, hj, pzpotrf_get hA hm hn hk ?_⟩
    unfold pkStep okT
    rw [List.getElem?_cons_succ, List.getElem?_map, List.getElem?_map, hj]
    rfl
  have h0 := pzpotrf_get (pk := pk) (info := info) (dv := dv) (u := u) hA hm hn hk (j := 0) (t := _) rfl
  have hget : ∀ (j : Nat) t, (pzpotrf pk info dv u A)[j]? = some t → (tasks (pzpotrf pk info dv u A))[j]? = some t.task := by
    intro j t h
    unfold tasks; rw [List.getElem?_map, h]; rfl
  have htrsm : ∀ m, (m, k) ∈ pkIdx (ceilDiv N b) k → ∃ j : Nat, (pkIdx (ceilDiv N b) k)[j]? = some (m, k) ∧
      (pzpotrf pk info dv u A)[pkOff pk info dv u A b N k + (j + 1)]? = some ⟨pkTask dv u A b N k (m, k), true, fun _ => 0⟩ ∧
      TEdge (tasks (pzpotrf pk info dv u A)) (pkOff pk info dv u A b N k) (pkOff pk info dv u A b N k + (j + 1)) := by
    intro m hmk
    obtain ⟨j, hj, e⟩ := hidx _ hmk
    refine ⟨j, hj, e, by omega, _, _, hget _ _ h0, hget _ _ e, Or.inr ⟨(pt u A (k, k), true), List.mem_cons_self, (pt u A (k, k), false), ?_, rfl, Or.inl rfl⟩⟩
    simp only [pkTask, if_true]
    exact List.mem_cons_self
  by_cases h2 : p.2 = k
  · have hpk' : p ∈ pkIdx (ceilDiv N b) k := by
      rw [mem_pkIdx]
      refine ⟨?_, hpK, Or.inl h2⟩
      rcases Nat.lt_or_ge k p.1 with h | h
      · exact h
      · exact absurd (Prod.ext (by simp; omega) (by simpa using h2)) hkk
    have hpe : p = (p.1, k) := Prod.ext rfl h2
    rw [hpe] at hpk' ⊢
    obtain ⟨j, -, e, he⟩ := htrsm _ hpk'
    refine ⟨_, _, e, ?_, Or.inr (.single he)⟩
    simp only [pkTask, if_true]
    exact ⟨rfl, hbox⟩
  · have hpk' : p ∈ pkIdx (ceilDiv N b) k := by
      rw [mem_pkIdx]; exact ⟨by omega, hpK, Or.inr ⟨by omega, hp21⟩⟩
    obtain ⟨j2, hj2, e2⟩ := hidx _ hpk'
    obtain ⟨j1, hj1, e1, he1⟩ := htrsm p.1 (by rw [mem_pkIdx]; exact ⟨by simp only; omega, hpK, Or.inl rfl⟩)
    have hlt : j1 < j2 := by
      have hpw := (List.pairwise_cons.mp (pkIdx_pairwise (ceilDiv N b) k)).2
      obtain ⟨l1, g1⟩ := List.getElem?_eq_some_iff.mp hj1
      obtain ⟨l2, g2⟩ := List.getElem?_eq_some_iff.mp hj2
      rcases Nat.lt_trichotomy j1 j2 with h | h | h
      · exact h
      · subst h
        rw [g1] at g2
        exact absurd (by rw [← g2]) h2
      · have := List.pairwise_iff_getElem.mp hpw j2 j1 l2 l1 h
        rw [g1, g2] at this
        exact absurd (this.2.2 rfl) h2
    refine ⟨_, _, e2, ?_, Or.inr (.tail (.single he1) ⟨by omega, _, _, hget _ _ e1, hget _ _ e2, Or.inr ⟨(pt u A (p.1, k), true), ?_, (pt u A (p.1, k), false), ?_, rfl, Or.inl rfl⟩⟩)⟩
    · simp only [pkTask, if_neg h2]
      split
      · rename_i h3; exact ⟨rfl, htri h3⟩
      · exact ⟨rfl, hbox⟩
    · simp only [pkTask, if_true]
      exact List.mem_cons_of_mem _ List.mem_cons_self
    · simp only [pkTask, if_neg h2]
      split
      · exact List.mem_cons_self
      · cases u
        · simp [coreGemm, op2]
        · simp [coreGemm, op2]

/-- The columns of tiles before step `k` are not written from there on. -/
theorem pzpotrf_early (hA : A.Al b) (hm : A.d.m = N) (hn : A.d.n = N) {k : Nat} (hk : k < ceilDiv N b) (s : Store (M × Nat × Nat) 𝕜) {m n : Nat} (h : min m n < k) :
    texec (tasks (pzpotrf pk info dv u A)) s (A.at' m n) = texec (tasks ((List.range k).flatMap (pkStep pk info dv u A b N))) s (A.at' m n) := by
  rw [pzpotrf_split hA hm hn hk, tasks_append, texec_append]
  have hw : ∀ k', k ≤ k' → Writes (fun x => ∃ p : Nat × Nat, k ≤ p.1 ∧ k ≤ p.2 ∧ x = pt u A p) (tasks (pkStep pk info dv u A b N k')) := by
    intro k' hk'
    rw [tasks_pkStep]
    refine Writes.flatMap fun p hp => (pkBody_writes k' p).mono fun x hx => ⟨p, ?_, ?_, hx⟩
    · rcases List.mem_cons.mp hp with rfl | hp
      · exact hk'
      · rw [mem_pkIdx] at hp; omega
    · rcases List.mem_cons.mp hp with rfl | hp
      · exact hk'
      · rw [mem_pkIdx] at hp; omega
  refine Writes.frame (W := fun x => ∃ p : Nat × Nat, k ≤ p.1 ∧ k ≤ p.2 ∧ x = pt u A p) ?_ _ ?_
  · rw [tasks_append, tasks_flatMap]
    refine (hw k le_rfl).append (Writes.flatMap fun k' hk' => ?_)
    obtain ⟨x, -, rfl⟩ := List.mem_map.mp hk'
    exact hw _ (by omega)
  · rintro ⟨p, h1, h2, h3⟩
    unfold pt at h3
    split at h3
    · rw [TMat.at'_inj] at h3; omega
    · rw [TMat.at'_inj] at h3; omega
end

/-- **C86.** If `plasma_zpotrf` returns `st ≠ 0`, there are a number `q` of columns, a multiple of the tile size with `q < st ≤ q + nb`, and
the first `q` columns `L` of a Cholesky factor of the matrix given by the selected triangle on entry, such that every element of the
selected triangle is as it was before the call or, in the first `q` columns (rows, for the upper triangle), the element of the factor.  Nothing
else is changed. -/
theorem C86_potrf {𝕜 : Type v} [RCLike 𝕜] [DecidableEq 𝕜] {nb : Nat} (hnb : 0 < nb) {pk : Uplo → Nat → Tl 𝕜 → Tl 𝕜}
    {info : Uplo → Nat → Tl 𝕜 → Nat} (hpk : IsPotrf pk info) {dv : 𝕜 → 𝕜 → 𝕜} (hdv : IsDiv dv) (u : Uplo) (n lda : Nat) (hl : n ≤ lda)
    (mem mem' : Buf × Nat → 𝕜) (st : Int)
    (hx : GExec (drvEnvK nb (potDims n) (ld1 lda) (fun _ => some u)) (zpotrf nb pk info dv u n) mem mem' st) (hst : st ≠ 0) :
    ∃ (q : Nat) (L : Nat → Nat → 𝕜), nb ∣ q ∧ (q : Int) < st ∧ st ≤ q + nb ∧ q < n ∧
      (∀ i, i < q → star (L i i) = L i i ∧ 0 < RCLike.re (L i i)) ∧
      (∀ r c, c ≤ r → r < n → c < q → ∑ l ∈ range (c + 1), L r l * star (L c l) = herE u (arr mem 0 lda) r c) ∧
      (∀ i j, i < n → j < n → inTri u i j → arr mem' 0 lda i j = arr mem 0 lda i j ∨
        (min i j < q ∧ arr mem' 0 lda i j = if u = .lower then L i j else star (L j i))) ∧
      (∀ i j, i < n → j < n → ¬ inTri u i j → arr mem' 0 lda i j = arr mem 0 lda i j) ∧
      (∀ k x, (k = 0 → ∀ i j, i < n → j < n → x ≠ i + j * lda) → mem' (.usr k, x) = mem (.usr k, x)) := by
  unfold zpotrf at hx
  split at hx
  · obtain ⟨rfl, _⟩ := gexec_nil (drvEnvK_wf hnb (pot_ld hl) pot_sq) hx
    exact absurd rfl hst
  rename_i hq
  rw [ompZpotrf_eq hq] at hx
  set A := tMat nb (potDims n) 0 with hAd
  have hA : A.Al nb := al_t hnb 0
  have hco : CodeOK (pzpotrf pk info dv u A) := pzpotrf_codeOK (N := n) hpk hA rfl rfl
  have hgood := pot_good (𝕜 := 𝕜) (lda := lda) (n := n) (dv := dv) (u := u) hnb hpk
  have hg := driverK_good (ins := [0]) (outs := [0]) hnb pot_sq hgood
  rw [← tasks_gdriverK] at hg
  obtain ⟨hf1, hf2⟩ := gdriverK_frame hnb pot_sq hgood (pot_onTiles hnb) hx
  have hgd : ∀ t ∈ pzpotrf pk info dv u A, t.guard = true := by
    intro t ht
    rw [pzpotrf_eq (N := n) hA rfl rfl] at ht
    obtain ⟨k, -, ht⟩ := List.mem_flatMap.mp ht
    rcases List.mem_cons.mp ht with rfl | ht
    · rfl
    · obtain ⟨_, _, rfl⟩ := List.mem_map.mp ht; rfl
  obtain ⟨s, hin, hus, D, hD1, hD2, hval⟩ := gdrv_partial (W := []) hnb (pot_ld hl) pot_sq (by simp) (by simp) (by simp)
    ((pot_onTiles hnb).mono fun _ h => Or.inl h) hco hgd hg.toC hx
  obtain ⟨i0, hi0, hc0⟩ := hD2 hst
  have hfst : ∀ j < i0, tcode (pzpotrf pk info dv u A) s j = 0 := by
    intro j hj
    by_contra hne
    have g : ∀ x, tcode (pzpotrf pk info dv u A) s x ≠ 0 → ∃ t, (pzpotrf pk info dv u A)[x]? = some t ∧ ∃ s, t.code s ≠ 0 := by
      intro x hx
      unfold tcode at hx
      cases h : (pzpotrf pk info dv u A)[x]? with
      | none => rw [h] at hx; exact absurd rfl hx
      | some t => rw [h] at hx; exact ⟨t, rfl, _, hx⟩
    obtain ⟨t, ht, h1⟩ := g j hne
    obtain ⟨t', ht', h2⟩ := g i0 (by rw [hc0]; exact hst)
    exact hne (hD1 i0 hi0 j (pzpotrf_chain (N := n) hA rfl rfl j i0 t t' hj ht ht' h1 h2)).2
  have hmain := pzpotrf_eq (pk := pk) (info := info) (dv := dv) (u := u) (N := n) hA rfl rfl
  have hci := hc0
  rw [hmain] at hci hfst
  obtain ⟨k, hk, h1, h2⟩ := steps_first
    (t := fun k => corePotrf pk info u (tdim n nb k) (pt u A (k, k)) (nb * k))
    (R := fun k => (pkIdx (ceilDiv n nb) k).map (pkTask dv u A nb n k)) (by rw [show ((List.range (ceilDiv n nb)).flatMap fun k =>
    corePotrf pk info u (tdim n nb k) (pt u A (k, k)) (nb * k) ::
      okT ((pkIdx (ceilDiv n nb) k).map (pkTask dv u A nb n k))) =
    (List.range (ceilDiv n nb)).flatMap (pkStep pk info dv u A nb n) from rfl, hci]; exact hst) hfst
  have hinv := pkSteps_inv (u := u) (N := n) hpk hdv hA s (le_of_lt hk) h2
  rw [show ((List.range (ceilDiv n nb)).flatMap fun k =>
    corePotrf pk info u (tdim n nb k) (pt u A (k, k)) (nb * k) ::
      okT ((pkIdx (ceilDiv n nb) k).map (pkTask dv u A nb n k))) =
    (List.range (ceilDiv n nb)).flatMap (pkStep pk info dv u A nb n) from rfl, hci] at h1
  change (corePotrf pk info u (tdim n nb k) (pt u A (k, k)) (nb * k)).code
    (texec (tasks ((List.range k).flatMap (pkStep pk info dv u A nb n))) s) = st at h1
  have hoff : tcode (pzpotrf pk info dv u A) s (pkOff pk info dv u A nb n k) = st := by
    rw [pzpotrf_split (N := n) hA rfl rfl hk, pkOff, ← Nat.add_zero ((List.range k).flatMap _).length, tcode_append_right]
    exact h1
  set F := texec (tasks ((List.range k).flatMap (pkStep pk info dv u A nb n))) s with hF
  have hkn : k * nb < n := (lt_ceilDiv hnb).mp hk
  have hI : ∀ i j, i < n → j < n → inTri u i j → A.el s i j = arr mem 0 lda i j :=
    fun i j hi hj h => hin 0 (by simp) i j hi hj (stOK_some_div h)
  have hinfo : info u (tdim n nb k) (F (pt u A (k, k))) ≠ 0 := by
    intro h0
    simp only [corePotrf, h0, ne_eq, not_true_eq_false, if_false] at h1
    exact hst h1.symm
  obtain ⟨j, hj⟩ := Nat.exists_eq_succ_of_ne_zero hinfo
  have hjb : j < nb := lt_of_lt_of_le (hpk.bad u _ _ j hj).1 Layout.tdim_le
  simp only [corePotrf, hj, ne_eq, Nat.succ_ne_zero, not_false_eq_true, if_true] at h1
  refine ⟨k * nb, lowE u (A.el F), Dvd.intro_left k rfl, ?_, ?_, hkn, ?_, ?_, ?_, ?_, ?_⟩
  · rw [← h1]; push_cast; nlinarith
  · rw [← h1]; push_cast
    have : (j : Int) < nb := by exact_mod_cast hjb
    nlinarith
  · intro i hi
    exact hinv.pos i (by omega) hi
  · intro r c hc hr hcq
    rw [hinv.done r c hc hr hcq]
    have e1 : hd (lowE u (A.el s)) r c = hd (lowE u (arr mem 0 lda)) r c := by
      unfold hd
      rw [lowE_congr hc fun i j h hi hj => hI i j (by omega) (by omega) h]
    rw [e1]
    have := congrFun (congrFun (hermM_lowE u (arr mem 0 lda) n) ⟨r, hr⟩) ⟨c, by omega⟩
    simpa [hermM, herM, hc] using this
  · intro i j hi hj hij
    rcases hval 0 (by simp) i j hi hj with h | ⟨hs1, hs2, hs3⟩
    · exact Or.inl h
    · right
      have hlt : min (i / nb) (j / nb) < k := by
        by_contra hge
        obtain ⟨x, t, hx1, hx2, hx3⟩ := pzpotrf_after (pk := pk) (info := info) (dv := dv) (u := u) (N := n) hA rfl rfl hk hij hi hj (by omega) (by omega)
        obtain ⟨hxD, hx0⟩ := hs3 x t hx1 hx2
        rcases hx3 with rfl | hx3
        · exact hst (hoff ▸ hx0)
        · exact hst (hoff ▸ (hD1 x hxD _ hx3).2)
      refine ⟨?_, ?_⟩
      · rcases Nat.le_total i j with h | h
        · have : i / nb ≤ j / nb := Nat.div_le_div_right h
          have h3 : i / nb < k := by omega
          rw [Nat.div_lt_iff_lt_mul hnb] at h3
          omega
        · have : j / nb ≤ i / nb := Nat.div_le_div_right h
          have h3 : j / nb < k := by omega
          rw [Nat.div_lt_iff_lt_mul hnb] at h3
          omega
      · have e : A.el (texec (tasks (pzpotrf pk info dv u A)) s) i j = A.el F i j := by
          simp only [TMat.el, hA.mb, hA.nb]
          rw [pzpotrf_early (N := n) hA rfl rfl hk s hlt]
        refine (hs2.trans e).trans ?_
        cases u
        · simp [lowE]
        · simp [lowE]
  · intro i j hi hj hij
    rcases hval 0 (by simp) i j hi hj with h | ⟨hs1, hs2, -⟩
    · exact h
    · rw [pzpotrf_frame (N := n) hA rfl rfl s hij] at hs2
      exact hs2.trans (hin 0 (by simp) i j hi hj hs1)
  · intro k x hk
    by_cases hk0 : k = 0
    · subst hk0; exact hf2 0 x (hk rfl)
    · exact hf1 k (by simpa using hk0) x

end Verif.Props

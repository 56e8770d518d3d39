/-
The first element of the band matrix is real after compute/pzge2gb.c.
-/
import Verif.Ge2gbGood
import Verif.LKern
import Verif.BulgeMath

namespace Verif.Qr

open Verif.Layout Verif.Tile Verif.Tree Verif.Fact Finset Matrix

universe u v

set_option linter.unusedSectionVars false

section
variable {M : Type u} {α : Type v} [CommRing α] [StarRing α]

/-- The kernels leave a real number in the first place: it is the `beta` of the first `zlarfg`. -/
structure KReal (K : QrKern α) : Prop where
  ge : ∀ m n ib A, 0 < m → 0 < n → 0 < ib → star (K.gA m n ib A 0 0) = K.gA m n ib A 0 0
  ts : ∀ m n ib A1 A2 T, 0 < m → 0 < n → 0 < ib → star (K.sA1 m n ib A1 A2 T 0 0) = K.sA1 m n ib A1 A2 T 0 0

/-- The first element is real. -/
def Re0 (A : TMat M) (s : Store (M × Nat × Nat) α) : Prop := star (s (A.at' 0 0) 0 0) = s (A.at' 0 0) 0 0

variable {A T C : TMat M} {b ib : Nat} {K : QrKern α}

theorem re0_frame {P : List (TTask (M × Nat × Nat) α)} (h : Writes (fun x => x ≠ A.at' 0 0) P) {s : Store (M × Nat × Nat) α}
    (hs : Re0 A s) : Re0 A (texec P s) := by
  unfold Re0
  rw [h.frame s (x := A.at' 0 0) (fun h => h rfl)]
  exact hs

theorem w_qr (hA : A.Al b) (hT : T.id ≠ A.id) {p q m n : Nat} (hpq : 0 < p ∨ 0 < q) :
    Writes (fun x => x ≠ A.at' 0 0) (pzgeqrf K (A.sub (p * b) (q * b) m n) T) := by
  rw [pzgeqrf_eq K (sub_al' hA p q m n)]
  refine Writes.mono (fac_writes_tiles (ops_inB (flatOps_ok _ _))) ?_
  rintro x (⟨r, c, _, _, rfl⟩ | ⟨r, c, rfl⟩) h
  · rw [sub_at' hA] at h
    have := TMat.at'_inj.mp h
    omega
  · exact TMat.at'_ne hT h

theorem w_lq (hA : A.Al b) (hT : T.id ≠ A.id) {p q m n : Nat} (hpq : 0 < p ∨ 0 < q) :
    Writes (fun x => x ≠ A.at' 0 0) (pzgelqf K (A.sub (p * b) (q * b) m n) T) := by
  rw [pzgelqf_eq K (sub_al' hA p q m n)]
  refine Writes.mono (lfac_writes_tiles (ops_inB (flatOps_ok _ _))) ?_
  rintro x (⟨r, c, _, _, rfl⟩ | ⟨r, c, rfl⟩) h
  · rw [sub_at' hA] at h
    have := TMat.at'_inj.mp h
    omega
  · exact TMat.at'_ne hT h

theorem w_unmqr (hA : A.Al b) {p q p' q' m n n' : Nat} (hpq : 0 < p' ∨ 0 < q') :
    Writes (fun x => x ≠ A.at' 0 0)
      (pzunmqr (α := α) true true (A.sub (p * b) (q * b) m n) T (A.sub (p' * b) (q' * b) m n')) := by
  rw [pzunmqr_left_eq (sub_al' hA p q m n) (sub_al' hA p' q' m n') rfl]
  refine Writes.flatMap fun o _ => Writes.mono (updL_writes o) ?_
  rintro x ⟨r, c, _, _, rfl⟩ h
  rw [sub_at' hA] at h
  have := TMat.at'_inj.mp h
  omega

theorem w_unmlq (hA : A.Al b) {p q p' q' m m' n : Nat} (hpq : 0 < p' ∨ 0 < q') :
    Writes (fun x => x ≠ A.at' 0 0)
      (pzunmlq (α := α) false true (A.sub (p * b) (q * b) m n) T (A.sub (p' * b) (q' * b) m' n)) := by
  have aV := sub_al' hA p q m n
  have aC := sub_al' hA p' q' m' n
  have hCnt : (A.sub (p' * b) (q' * b) m' n).d.nt = (A.sub (p * b) (q * b) m n).d.nt := by rw [aC.nt_eq, aV.nt_eq]; rfl
  rw [pzunmlq_right_eq aV aC rfl]
  refine Writes.flatMap fun o ho => Writes.mono (lupdR_writes_tiles (N := (A.sub (p * b) (q * b) m n).d.mt) ?_) ?_
  · rw [hCnt]; exact ops_inB (flatOps_ok _ _) o ho
  · rintro x ⟨r, c, _, _, rfl⟩ h
    rw [sub_at' hA] at h
    have := TMat.at'_inj.mp h
    omega

/-- One operation of the first panel. -/
theorem fac_re0 (hK : KReal K) (hib : 0 < ib) (hA : A.Al b) (hT : T.id ≠ A.id) (hn : 0 < A.d.n)
    {o : Op} (ho : o.inB A.d.mt A.d.nt) (hs : o = .ge 0 0 ∨ ∃ m, o = .ts 0 m 0) (s : Store (M × Nat × Nat) α) :
    Re0 A (texec (facT K ib id A T o) s) := by
  have hw : Writes (fun x => x ≠ A.at' 0 0) (updL (α := α) true ib id A T A (span (o.col + 1) A.d.nt) o) := by
    refine Writes.mono (updL_writes o) ?_
    rintro x ⟨r, c, _, hc, rfl⟩ h
    have := (TMat.at'_inj.mp h).2
    have := (mem_span.mp hc).1
    omega
  unfold facT
  rw [texec_cons]
  refine re0_frame hw ?_
  have hTa : ∀ r c r' c', T.at' r c ≠ A.at' r' c' := fun r c r' c' e => hT (congrArg Prod.fst e)
  have hnv : 0 < A.d.nview 0 := by
    have h0 := inB_col ho
    rw [hA.nview (by omega)]
    unfold tdim
    have := hA.pos
    omega
  rcases hs with rfl | ⟨m, rfl⟩
  · have hmv : 0 < A.d.mview 0 := by
      have h0 := ho.2
      have h1 := tile_lt_m hA h0
      rw [hA.mview h0]
      unfold tdim
      have := hA.pos
      omega
    have e : (kerT K ib id A T (.ge 0 0)).run s (A.at' 0 0) = paste (box (A.d.mview 0) (A.d.nview 0))
        (K.gA (A.d.mview 0) (A.d.nview 0) ib (s (A.at' 0 0))) (s (A.at' 0 0)) := by
      refine wop_at (rds := []) (ws := [⟨A.at' 0 0, _, _⟩, ⟨T.at' 0 0, _, _⟩]) ?_ (List.mem_cons_self ..) s
      simp [(hTa 0 0 0 0).symm]
    unfold Re0
    rw [e]
    unfold paste
    rw [if_pos ⟨hmv, hnv⟩]
    exact hK.ge _ _ _ _ hmv hnv hib
  · have hmv : 0 < A.d.mview m := by
      have h0 := ho.2.2
      have h1 := tile_lt_m hA h0
      rw [hA.mview h0]
      unfold tdim
      have := hA.pos
      omega
    have e : (kerT K ib id A T (.ts 0 m 0)).run s (A.at' 0 0) = paste (upTo (A.d.nview 0))
        (K.sA1 (A.d.mview m) (A.d.nview 0) ib (s (A.at' 0 0)) (s (A.at' m 0)) (s (T.at' m 0))) (s (A.at' 0 0)) := by
      refine wop_at (rds := []) (ws := [⟨A.at' 0 0, _, _⟩, ⟨A.at' m 0, _, _⟩, ⟨T.at' m 0, _, _⟩]) ?_ (List.mem_cons_self ..) s
      have h1 : A.at' 0 0 ≠ A.at' m 0 := by
        intro e
        have := (TMat.at'_inj.mp e).1
        have := ho.2.1
        omega
      simp [(hTa m 0 0 0).symm, (hTa m 0 m 0).symm, h1]
    unfold Re0
    rw [e]
    unfold paste
    rw [if_pos ⟨le_rfl, hnv⟩]
    exact hK.ts _ _ _ _ _ _ hmv hnv hib

theorem lfac_re0 (hK : KReal K) (hib : 0 < ib) (hA : A.Al b) (hT : T.id ≠ A.id) (hm : 0 < A.d.m)
    {o : Op} (ho : o.inB A.d.nt A.d.mt) (hs : o = .ge 0 0 ∨ ∃ m, o = .ts 0 m 0) (s : Store (M × Nat × Nat) α) :
    Re0 A (texec (lfacT K ib id A T o) s) := by
  have hw : Writes (fun x => x ≠ A.at' 0 0) (lupdR (α := α) true true ib id A T A (span (o.col + 1) A.d.mt) o) := by
    refine Writes.mono (lupdR_writes_tiles ho) ?_
    rintro x ⟨r, c, hr, _, rfl⟩ h
    have := (TMat.at'_inj.mp h).1
    have := (mem_span.mp hr).1
    omega
  unfold lfacT
  rw [texec_cons]
  refine re0_frame hw ?_
  have hTa : ∀ r c r' c', T.at' r c ≠ A.at' r' c' := fun r c r' c' e => hT (congrArg Prod.fst e)
  have hmv : 0 < A.d.mview 0 := by
    have h0 := inB_col ho
    rw [hA.mview (by omega)]
    unfold tdim
    have := hA.pos
    omega
  rcases hs with rfl | ⟨m, rfl⟩
  · have hnv : 0 < A.d.nview 0 := by
      have h0 := ho.2
      have h1 := tile_lt_n hA h0
      rw [hA.nview h0]
      unfold tdim
      have := hA.pos
      omega
    have e : (lkerT K ib id A T (.ge 0 0)).run s (A.at' 0 0) = paste (box (A.d.mview 0) (A.d.nview 0))
        (cT (K.gA (A.d.nview 0) (A.d.mview 0) ib (cT (s (A.at' 0 0))))) (s (A.at' 0 0)) := by
      refine wop_at (rds := []) (ws := [⟨A.at' 0 0, _, _⟩, ⟨T.at' 0 0, _, _⟩]) ?_ (List.mem_cons_self ..) s
      simp [(hTa 0 0 0 0).symm]
    unfold Re0
    rw [e]
    unfold paste
    rw [if_pos ⟨hmv, hnv⟩]
    exact congrArg star (hK.ge _ _ _ _ hnv hmv hib)
  · have hnv : 0 < A.d.nview m := by
      have h0 := ho.2.2
      have h1 := tile_lt_n hA h0
      rw [hA.nview h0]
      unfold tdim
      have := hA.pos
      omega
    have e : (lkerT K ib id A T (.ts 0 m 0)).run s (A.at' 0 0) = paste (loTo (A.d.mview 0))
        (cT (K.sA1 (A.d.nview m) (A.d.mview 0) ib (cT (s (A.at' 0 0))) (cT (s (A.at' 0 m))) (s (T.at' 0 m)))) (s (A.at' 0 0)) := by
      refine wop_at (rds := []) (ws := [⟨A.at' 0 0, _, _⟩, ⟨A.at' 0 m, _, _⟩, ⟨T.at' 0 m, _, _⟩]) ?_ (List.mem_cons_self ..) s
      have h1 : A.at' 0 0 ≠ A.at' 0 m := by
        intro e
        have := (TMat.at'_inj.mp e).2
        have := ho.2.1
        omega
      simp [(hTa 0 m 0 0).symm, (hTa 0 m 0 m).symm, h1]
    unfold Re0
    rw [e]
    unfold paste
    rw [if_pos ⟨le_rfl, hmv⟩]
    exact congrArg star (hK.ts _ _ _ _ _ _ hnv hmv hib)

theorem texec_last {ι : Type} {f : ι → List (TTask (M × Nat × Nat) α)} {R : Store (M × Nat × Nat) α → Prop} {l : List ι}
    (h : ∀ x ∈ l, ∀ s, R (texec (f x) s)) (hl : l ≠ []) (s : Store (M × Nat × Nat) α) : R (texec (l.flatMap f) s) := by
  obtain ⟨x, l', rfl⟩ : ∃ x l', l = l' ++ [x] := ⟨l.getLast hl, l.dropLast, (List.dropLast_append_getLast hl).symm⟩
  rw [List.flatMap_append, texec_append, List.flatMap_singleton]
  exact h x (by simp) _

theorem flatOps_first {mt nt : Nat} (hnt : nt ≤ 1) {o : Op} (h : o ∈ flatOps mt nt) : o = .ge 0 0 ∨ ∃ m, o = .ts 0 m 0 := by
  obtain ⟨k, hk, h⟩ := mem_flatOps h
  have : k = 0 := by omega
  subst this
  rcases h with rfl | ⟨m, _, _, rfl⟩
  exacts [Or.inl rfl, Or.inr ⟨m, rfl⟩]

theorem flatOps_ne {mt nt : Nat} (h1 : 0 < mt) (h2 : 0 < nt) : flatOps mt nt ≠ [] := by
  unfold flatOps
  obtain ⟨k, hk⟩ : ∃ k, min mt nt = k + 1 := ⟨min mt nt - 1, by omega⟩
  rw [hk, List.range_succ_eq_map, List.flatMap_cons]
  unfold flatTree
  simp

theorem al_mt_pos (hA : A.Al b) (h : 0 < A.d.m) : 0 < A.d.mt := by
  rw [hA.mt_eq, lt_ceilDiv hA.pos]; omega

theorem al_nt_pos (hA : A.Al b) (h : 0 < A.d.n) : 0 < A.d.nt := by
  rw [hA.nt_eq, lt_ceilDiv hA.pos]; omega

/-- `plasma_pzge2gb` leaves a real first element. -/
theorem ge2gb_re0 (hK : KReal K) (hib : 0 < ib) (hA : A.Al b) (hT : T.id ≠ A.id) (hTb : T.d.mb = ib) (hm : 0 < A.d.m) (hn : 0 < A.d.n)
    (s : Store (M × Nat × Nat) α) : Re0 A (texec (pzge2gb K A T) s) := by
  have hb := hA.pos
  have hmt := al_mt_pos hA hm
  have hnt := al_nt_pos hA hn
  have hnv0 : 0 < A.d.nview 0 ∧ A.d.nview 0 ≤ b := by
    rw [hA.nview hnt]; unfold tdim; omega
  have hmv0 : 0 < A.d.mview 0 ∧ A.d.mview 0 ≤ b := by
    rw [hA.mview hmt]; unfold tdim; omega
  have hsub : ∀ m n s, Re0 (A.sub (0 * b) (0 * b) m n) s → Re0 (α := α) A s := by
    intro m n s h
    unfold Re0 at h ⊢
    rw [sub_at' hA] at h
    exact h
  have hT' : ∀ p q m n, (T.sub p q m n).id ≠ A.id := fun _ _ _ _ => hT
  have hTp : ∀ p q m n, 0 < (T.sub p q m n).d.mb := fun _ _ _ _ => by show 0 < T.d.mb; omega
  unfold pzge2gb
  rw [hA.mb, hA.nb]
  by_cases hmn : A.d.n ≤ A.d.m
  · rw [if_pos hmn]
    obtain ⟨N, hN⟩ : ∃ N, A.d.nt = N + 1 := ⟨A.d.nt - 1, by omega⟩
    rw [hN, List.range_succ_eq_map, List.flatMap_cons, List.append_assoc, texec_append]
    refine re0_frame (Writes.append (Writes.append (Writes.ite (fun _ => ?_) fun _ => Writes.nil)
      (Writes.ite (fun _ => Writes.append ?_ ?_) fun _ => Writes.nil)) (Writes.flatMap fun k hk => ?_)) ?_
    · exact w_unmqr hA (Or.inr (by omega))
    · exact w_lq hA (hT' _ _ _ _) (Or.inr (by omega))
    · exact w_unmlq hA (Or.inr (by omega))
    · obtain ⟨k', _, rfl⟩ := List.mem_map.mp hk
      have hk0 : 0 < k'.succ := Nat.succ_pos _
      refine Writes.append (w_qr hA (hT' _ _ _ _) (Or.inl hk0)) (Writes.append (Writes.ite (fun _ => w_unmqr hA (Or.inl hk0)) fun _ => Writes.nil)
        (Writes.ite (fun _ => Writes.append (w_lq hA (hT' _ _ _ _) (Or.inl hk0)) (w_unmlq hA (Or.inl (by omega)))) fun _ => Writes.nil))
    · refine hsub (A.d.m - 0 * b) (A.d.nview 0) _ ?_
      have aV : (A.sub (0 * b) (0 * b) (A.d.m - 0 * b) (A.d.nview 0)).Al b := sub_al' hA _ _ _ _
      rw [pzgeqrf_eq K aV]
      set V := A.sub (0 * b) (0 * b) (A.d.m - 0 * b) (A.d.nview 0) with hV
      have hVm : 0 < V.d.m := by show 0 < A.d.m - 0 * b; omega
      have hVn : 0 < V.d.n := hnv0.1
      refine texec_last (R := Re0 V) (fun o ho s => fac_re0 hK (hTp _ _ _ _) aV (hT' _ _ _ _) hVn (ops_inB (flatOps_ok _ _) o ho) ?_ s)
        (flatOps_ne (al_mt_pos aV hVm) (al_nt_pos aV hVn)) s
      refine flatOps_first ?_ ho
      rw [aV.nt_eq]
      exact ceilDiv_le_one hb hnv0.2
  · rw [if_neg hmn]
    obtain ⟨N, hN⟩ : ∃ N, A.d.mt = N + 1 := ⟨A.d.mt - 1, by omega⟩
    rw [hN, List.range_succ_eq_map, List.flatMap_cons, List.append_assoc, texec_append]
    refine re0_frame (Writes.append (Writes.append (Writes.ite (fun _ => ?_) fun _ => Writes.nil)
      (Writes.ite (fun _ => Writes.append ?_ ?_) fun _ => Writes.nil)) (Writes.flatMap fun k hk => ?_)) ?_
    · exact w_unmlq hA (Or.inl (by omega))
    · exact w_qr hA (hT' _ _ _ _) (Or.inl (by omega))
    · exact w_unmqr hA (Or.inl (by omega))
    · obtain ⟨k', _, rfl⟩ := List.mem_map.mp hk
      have hk0 : 0 < k'.succ := Nat.succ_pos _
      refine Writes.append (w_lq hA (hT' _ _ _ _) (Or.inl hk0)) (Writes.append (Writes.ite (fun _ => w_unmlq hA (Or.inr hk0)) fun _ => Writes.nil)
        (Writes.ite (fun _ => Writes.append (w_qr hA (hT' _ _ _ _) (Or.inr hk0)) (w_unmqr hA (Or.inl (by omega)))) fun _ => Writes.nil))
    · refine hsub (A.d.mview 0) (A.d.n - 0 * b) _ ?_
      have aV : (A.sub (0 * b) (0 * b) (A.d.mview 0) (A.d.n - 0 * b)).Al b := sub_al' hA _ _ _ _
      rw [pzgelqf_eq K aV]
      set V := A.sub (0 * b) (0 * b) (A.d.mview 0) (A.d.n - 0 * b) with hV
      have hVn : 0 < V.d.n := by show 0 < A.d.n - 0 * b; omega
      have hVm : 0 < V.d.m := hmv0.1
      refine texec_last (R := Re0 V) (fun o ho s => lfac_re0 hK (hTp _ _ _ _) aV (hT' _ _ _ _) hVm (ops_inB (flatOps_ok _ _) o ho) ?_ s)
        (flatOps_ne (al_nt_pos aV hVn) (al_mt_pos aV hVm)) s
      refine flatOps_first ?_ ho
      rw [aV.mt_eq]
      exact ceilDiv_le_one hb hmv0.2

end

/-! ### The kernels of the code -/

section
variable {𝕜 : Type v} [RCLike 𝕜] {d n ib : Nat} {sup : Sup}

theorem hcols_00 {hi i : Nat} {s : HSt 𝕜} (h : 0 < i) :
    star ((hcols d sup 0 hi i s).X 0 0) = (hcols d sup 0 hi i s).X 0 0 := by
  induction i with
  | zero => omega
  | succ i ih =>
    unfold hcols at ih ⊢
    rw [List.range_succ, List.foldl_append, List.foldl_cons, List.foldl_nil]
    rcases Nat.eq_zero_or_pos i with rfl | h0
    · rw [hcol_X_le (by omega)]
      unfold larfgCol
      rw [if_pos rfl, if_pos rfl]
      exact Bulge.lbet_real _ _
    · rw [hcol_X_lt (by omega)]
      exact ih h0

theorem hcols_0 {ii hi i r : Nat} {s : HSt 𝕜} (h : 0 < ii) : (hcols d sup ii hi i s).X r 0 = s.X r 0 := by
  induction i with
  | zero => rfl
  | succ i ih =>
    unfold hcols at ih ⊢
    rw [List.range_succ, List.foldl_append, List.foldl_cons, List.foldl_nil, hcol_X_lt (by omega)]
    exact ih

theorem hqr_00 {k : Nat} (hk : 0 < k) (hib : 0 < ib) (s : HSt 𝕜) : star ((hqr d n k ib sup s).X 0 0) = (hqr d n k ib sup s).X 0 0 := by
  unfold hqr
  have h0 : 0 < ceilDiv k ib := by rw [lt_ceilDiv hib]; omega
  generalize ceilDiv k ib = B at h0
  induction B with
  | zero => omega
  | succ B ih =>
    rw [List.range_succ, List.foldl_append, List.foldl_cons, List.foldl_nil]
    rcases Nat.eq_zero_or_pos B with rfl | hB
    · have ht : 0 < tdim k ib 0 := by unfold tdim; omega
      show star ((hblk d n k ib sup 0 s).X 0 0) = (hblk d n k ib sup 0 s).X 0 0
      have e : (hblk d n k ib sup 0 s).X 0 0 = (hcols d sup (0 * ib) (0 * ib + tdim k ib 0) (tdim k ib 0) s).X 0 0 := if_neg (by omega)
      rw [e, Nat.zero_mul]
      exact hcols_00 ht
    · generalize List.foldl _ s (List.range B) = s' at ih
      have hp : 0 < B * ib := Nat.mul_pos hB hib
      have e : (hblk d n k ib sup B s').X 0 0 = (hcols d sup (B * ib) (B * ib + tdim k ib B) (tdim k ib B) s').X 0 0 := if_neg (by omega)
      rw [e, hcols_0 hp]
      exact ih hB

theorem lkern_real : KReal (lkern : QrKern 𝕜) where
  ge m n ib A hm hn hib := hqr_00 (by omega) hib _
  ts m n ib A1 A2 T hm hn hib := by
    have h := (fsS_rel hm hn hib (fun _ _ => 0) A1 A2 T).a1 0 0 le_rfl hn
    show star ((fsS (fun _ _ => 0) m n ib A1 A2 T).A1 0 0) = (fsS (fun _ _ => 0) m n ib A1 A2 T).A1 0 0
    rw [h]
    exact hqr_00 hn hib _

end

end Verif.Qr

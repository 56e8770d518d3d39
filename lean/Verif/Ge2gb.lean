/-
Reduction of a general matrix to band form: compute/pzge2gb.c.
-/
import Verif.LqGood
import Verif.Gels

namespace Verif.Qr

open Verif.Layout Verif.Tile Verif.Tree Finset Matrix

universe u v

set_option linter.unusedSectionVars false

section
variable {M : Type u} {α : Type v} [CommRing α] [StarRing α]

/-! ### The program -/

/-- `plasma_pzge2gb` (compute/pzge2gb.c:26-118): QR factorizations of tile columns and LQ factorizations of tile rows in
turn, each applied to the rest of the matrix. -/
noncomputable def pzge2gb (K : QrKern α) (A T : TMat M) : List (TTask (M × Nat × Nat) α) :=
  if A.d.n ≤ A.d.m then
    (List.range A.d.nt).flatMap fun k =>
      pzgeqrf K (A.sub (k * A.d.mb) (k * A.d.nb) (A.d.m - k * A.d.mb) (A.d.nview k))
        (T.sub (k * T.d.mb) (k * T.d.nb) (T.d.m - k * T.d.mb) (A.d.nview k)) ++
      ((if k + 1 < A.d.nt then
        pzunmqr true true (A.sub (k * A.d.mb) (k * A.d.nb) (A.d.m - k * A.d.mb) (A.d.nview k))
          (T.sub (k * T.d.mb) (k * T.d.nb) (T.d.m - k * T.d.mb) (A.d.nview k))
          (A.sub (k * A.d.mb) ((k + 1) * A.d.nb) (A.d.m - k * A.d.mb) (A.d.n - (k + 1) * A.d.nb)) else []) ++
      if k + 1 < A.d.nt then
        pzgelqf K (A.sub (k * A.d.mb) ((k + 1) * A.d.nb) (A.d.mview k) (A.d.n - (k + 1) * A.d.nb))
          (T.sub (k * T.d.mb) ((k + 1) * T.d.nb) T.d.mb (T.d.n - (k + 1) * T.d.nb)) ++
        pzunmlq false true (A.sub (k * A.d.mb) ((k + 1) * A.d.nb) (A.d.mview k) (A.d.n - (k + 1) * A.d.nb))
          (T.sub (k * T.d.mb) ((k + 1) * T.d.nb) T.d.mb (T.d.n - (k + 1) * T.d.nb))
          (A.sub ((k + 1) * A.d.mb) ((k + 1) * A.d.nb) (A.d.m - (k + 1) * A.d.mb) (A.d.n - (k + 1) * A.d.nb)) else [])
  else
    (List.range A.d.mt).flatMap fun k =>
      pzgelqf K (A.sub (k * A.d.mb) (k * A.d.nb) (A.d.mview k) (A.d.n - k * A.d.nb))
        (T.sub (k * T.d.mb) (k * T.d.nb) T.d.mb (T.d.n - k * T.d.nb)) ++
      ((if k + 1 < A.d.mt then
        pzunmlq false true (A.sub (k * A.d.mb) (k * A.d.nb) (A.d.mview k) (A.d.n - k * A.d.nb))
          (T.sub (k * T.d.mb) (k * T.d.nb) T.d.mb (T.d.n - k * T.d.nb))
          (A.sub ((k + 1) * A.d.mb) (k * A.d.nb) (A.d.m - (k + 1) * A.d.mb) (A.d.n - k * A.d.nb)) else []) ++
      if k + 1 < A.d.mt then
        pzgeqrf K (A.sub ((k + 1) * A.d.mb) (k * A.d.nb) (A.d.m - (k + 1) * A.d.mb) (A.d.nview k))
          (T.sub ((k + 1) * T.d.mb) (k * T.d.nb) (T.d.m - (k + 1) * T.d.mb) (A.d.nview k)) ++
        pzunmqr true true (A.sub ((k + 1) * A.d.mb) (k * A.d.nb) (A.d.m - (k + 1) * A.d.mb) (A.d.nview k))
          (T.sub ((k + 1) * T.d.mb) (k * T.d.nb) (T.d.m - (k + 1) * T.d.mb) (A.d.nview k))
          (A.sub ((k + 1) * A.d.mb) ((k + 1) * A.d.nb) (A.d.m - (k + 1) * A.d.mb) (A.d.n - (k + 1) * A.d.nb)) else [])

/-! ### Views -/

variable {A T C : TMat M} {b ib : Nat} {K : QrKern α}

theorem sub_al' (hA : A.Al b) (p q m n : Nat) : (A.sub (p * b) (q * b) m n).Al b where
  pos := hA.pos
  mb := hA.mb
  nb := hA.nb
  i := by show (A.d.i + p * b) % b = 0; rw [Nat.add_mul_mod_self_right, hA.i]
  j := by show (A.d.j + q * b) % b = 0; rw [Nat.add_mul_mod_self_right, hA.j]
  mt := by show ntiles (A.d.i + p * b) m A.d.mb = _; rw [hA.mb]; rfl
  nt := by show ntiles (A.d.j + q * b) n A.d.nb = _; rw [hA.nb]; rfl

theorem sub_at' (hA : A.Al b) (p q m n r c : Nat) : (A.sub (p * b) (q * b) m n).at' r c = A.at' (p + r) (q + c) := by
  have hb := hA.pos
  have e1 : (A.d.i + p * b) / A.d.mb = A.d.i / A.d.mb + p := by rw [hA.mb, Nat.add_mul_div_right _ _ hb]
  have e2 : (A.d.j + q * b) / A.d.nb = A.d.j / A.d.nb + q := by rw [hA.nb, Nat.add_mul_div_right _ _ hb]
  show (A.id, r + (A.d.i + p * b) / A.d.mb, c + (A.d.j + q * b) / A.d.nb) = (A.id, p + r + A.d.i / A.d.mb, q + c + A.d.j / A.d.nb)
  rw [e1, e2]
  congr 2 <;> omega

theorem sub_el' (hA : A.Al b) (p q m n : Nat) (s : Store (M × Nat × Nat) α) (r c : Nat) :
    (A.sub (p * b) (q * b) m n).el s r c = A.el s (p * b + r) (q * b + c) := by
  have hb := hA.pos
  unfold TMat.el
  rw [(sub_al' hA p q m n).mb, (sub_al' hA p q m n).nb, hA.mb, hA.nb, sub_at' hA]
  rw [Nat.mul_comm p, Nat.mul_comm q, Nat.mul_add_div hb, Nat.mul_add_div hb, Nat.mul_add_mod, Nat.mul_add_mod]

/-- The tiles of a factorization are tiles of the matrix or of `T`. -/
theorem fac_writes_tiles {ops : List Op} {off : Nat → Nat} (ho : ∀ o ∈ ops, o.inB A.d.mt A.d.nt) :
    Writes (fun x => (∃ r c, r < A.d.mt ∧ c < A.d.nt ∧ x = A.at' r c) ∨ ∃ r c, x = T.at' r c) (ops.flatMap (facT K ib off A T)) := by
  refine Writes.flatMap fun o h => ?_
  have ho := ho o h
  unfold facT
  rw [show ∀ (x : TTask (M × Nat × Nat) α) l, x :: l = [x] ++ l from fun _ _ => rfl]
  refine Writes.append ?_ ?_
  · cases o with
    | ge j k =>
      refine writes_wop fun w hw => ?_
      simp only [List.mem_cons, List.not_mem_nil, or_false] at hw
      rcases hw with rfl | rfl
      exacts [Or.inl ⟨_, _, ho.2, ho.1, rfl⟩, Or.inr ⟨_, _, rfl⟩]
    | ts j m k =>
      refine writes_wop fun w hw => ?_
      simp only [List.mem_cons, List.not_mem_nil, or_false] at hw
      rcases hw with rfl | rfl | rfl
      exacts [Or.inl ⟨_, _, lt_trans ho.2.1 ho.2.2, ho.1, rfl⟩, Or.inl ⟨_, _, ho.2.2, ho.1, rfl⟩, Or.inr ⟨_, _, rfl⟩]
    | tt j m k =>
      refine writes_wop fun w hw => ?_
      simp only [List.mem_cons, List.not_mem_nil, or_false] at hw
      rcases hw with rfl | rfl | rfl
      exacts [Or.inl ⟨_, _, lt_trans ho.2.1 ho.2.2, ho.1, rfl⟩, Or.inl ⟨_, _, ho.2.2, ho.1, rfl⟩, Or.inr ⟨_, _, rfl⟩]
  · refine Writes.mono (updL_writes o) ?_
    rintro x ⟨r, n, hr, hn, rfl⟩
    refine Or.inl ⟨r, n, ?_, (mem_span.mp hn).2, rfl⟩
    cases o with
    | ge j k => have hr : r = k := hr; rw [hr]; exact ho.2
    | ts j m k => have hr : r = k ∨ r = m := hr; have := ho.2; omega
    | tt j m k => have hr : r = k ∨ r = m := hr; have := ho.2; omega

theorem lupdR_writes_tiles {plus t : Bool} {off : Nat → Nat} {rows : List Nat} {o : Op} (ho : o.inB C.d.nt N) :
    Writes (fun x => ∃ r c, r ∈ rows ∧ c < C.d.nt ∧ x = C.at' r c)
      (lupdR plus t ib off A T C rows o : List (TTask (M × Nat × Nat) α)) := by
  cases o with
  | ge j k => exact Writes.map fun n hn => writes_op2 ⟨_, _, hn, ho.2, rfl⟩
  | ts j m k =>
    refine Writes.map fun n hn => writes_wop fun w hw => ?_
    simp only [List.mem_cons, List.not_mem_nil, or_false] at hw
    rcases hw with rfl | rfl
    exacts [⟨_, _, hn, lt_trans ho.2.1 ho.2.2, rfl⟩, ⟨_, _, hn, ho.2.2, rfl⟩]
  | tt j m k =>
    refine Writes.map fun n hn => writes_wop fun w hw => ?_
    simp only [List.mem_cons, List.not_mem_nil, or_false] at hw
    rcases hw with rfl | rfl
    exacts [⟨_, _, hn, lt_trans ho.2.1 ho.2.2, rfl⟩, ⟨_, _, hn, ho.2.2, rfl⟩]

theorem lfac_writes_tiles {ops : List Op} {off : Nat → Nat} (ho : ∀ o ∈ ops, o.inB A.d.nt A.d.mt) :
    Writes (fun x => (∃ r c, r < A.d.mt ∧ c < A.d.nt ∧ x = A.at' r c) ∨ ∃ r c, x = T.at' r c) (ops.flatMap (lfacT K ib off A T)) := by
  refine Writes.flatMap fun o h => ?_
  have ho := ho o h
  unfold lfacT
  rw [show ∀ (x : TTask (M × Nat × Nat) α) l, x :: l = [x] ++ l from fun _ _ => rfl]
  refine Writes.append ?_ (Writes.mono (lupdR_writes_tiles ho) ?_)
  · cases o with
    | ge j k =>
      refine writes_wop fun w hw => ?_
      simp only [List.mem_cons, List.not_mem_nil, or_false] at hw
      rcases hw with rfl | rfl
      exacts [Or.inl ⟨_, _, ho.1, ho.2, rfl⟩, Or.inr ⟨_, _, rfl⟩]
    | ts j m k =>
      refine writes_wop fun w hw => ?_
      simp only [List.mem_cons, List.not_mem_nil, or_false] at hw
      rcases hw with rfl | rfl | rfl
      exacts [Or.inl ⟨_, _, ho.1, lt_trans ho.2.1 ho.2.2, rfl⟩, Or.inl ⟨_, _, ho.1, ho.2.2, rfl⟩, Or.inr ⟨_, _, rfl⟩]
    | tt j m k =>
      refine writes_wop fun w hw => ?_
      simp only [List.mem_cons, List.not_mem_nil, or_false] at hw
      rcases hw with rfl | rfl | rfl
      exacts [Or.inl ⟨_, _, ho.1, lt_trans ho.2.1 ho.2.2, rfl⟩, Or.inl ⟨_, _, ho.1, ho.2.2, rfl⟩, Or.inr ⟨_, _, rfl⟩]
  · rintro x ⟨r, c, hr, hc, e⟩
    exact Or.inl ⟨r, c, (mem_span.mp hr).2, hc, e⟩

/-! ### One QR step and one LQ step -/

theorem ceilDiv_le_one {w b : Nat} (hb : 0 < b) (hw : w ≤ b) : ceilDiv w b ≤ 1 := by
  by_contra h
  have := (lt_ceilDiv (m := w) (k := 1) hb).mp (by omega)
  omega

theorem inB_col {mt nt : Nat} {o : Op} (h : o.inB mt nt) : o.col < nt := by cases o <;> exact h.1

theorem inB_row {mt nt : Nat} {o : Op} (h : o.inB mt nt) : o.row < mt := by
  cases o
  exacts [h.2, h.2.2, h.2.2]

/-- **QR step**: the panel of `w` columns at tile `(p, q)` is factored, `Q^H` is applied to the columns to the right of it. -/
theorem qr_step (hK : QrSpec K) (hib : 0 < ib) (hA : A.Al b) (hT : T.id ≠ A.id) (hTb : T.d.mb = ib) {p q w : Nat}
    (hw : w ≤ b) {g : Prop} [Decidable g] (hg : (q + 1) * b < A.d.n → g) (s : Store (M × Nat × Nat) α) {s' : Store (M × Nat × Nat) α}
    (hs' : s' = texec (pzgeqrf K (A.sub (p * b) (q * b) (A.d.m - p * b) w) T ++
      if g then pzunmqr true true (A.sub (p * b) (q * b) (A.d.m - p * b) w) T
        (A.sub (p * b) ((q + 1) * b) (A.d.m - p * b) (A.d.n - (q + 1) * b)) else []) s) :
    ∃ Q ∈ unitaryGroup (Fin (A.d.m - p * b)) α, (Q = qAll b (A.d.m - p * b) w ib id (A.sub (p * b) (q * b) (A.d.m - p * b) w) T s'
        (flatOps (A.sub (p * b) (q * b) (A.d.m - p * b) w).d.mt (A.sub (p * b) (q * b) (A.d.m - p * b) w).d.nt) ∧
        ∀ x, (∀ r c, x ≠ A.at' (p + r) (q + c)) → (∀ r c, x ≠ T.at' r c) → s' x = s x) ∧
      (∀ r c, r < A.d.m - p * b → c < w →
        lmul Q (triu fun r c => A.el s' (p * b + r) (q * b + c)) r c = A.el s (p * b + r) (q * b + c)) ∧
      (∀ r c, r < A.d.m - p * b → (q + 1) * b ≤ c → c < A.d.n →
        lmul Q (fun r c => A.el s' (p * b + r) c) r c = A.el s (p * b + r) c) ∧
      ∀ r c, r < p * b ∨ c < q * b → A.el s' r c = A.el s r c := by
  have hb := hA.pos
  set V := A.sub (p * b) (q * b) (A.d.m - p * b) w with hV
  set C := A.sub (p * b) ((q + 1) * b) (A.d.m - p * b) (A.d.n - (q + 1) * b) with hC
  have aV : V.Al b := sub_al' hA _ _ _ _
  have aC : C.Al b := sub_al' hA _ _ _ _
  have hVnt : V.d.nt ≤ 1 := by rw [aV.nt_eq]; exact ceilDiv_le_one hb hw
  have ho := flatOps_ok V.d.mt V.d.nt
  have hin := ops_inB ho
  rw [texec_append, pzgeqrf_eq K aV, hTb] at hs'
  set s1 := texec ((flatOps V.d.mt V.d.nt).flatMap (facT K ib id V T)) s with hs1
  obtain ⟨hu, hf⟩ := fac_ok hK hib (off := id) (T := T) aV (mm := A.d.m - p * b) (na := w) rfl rfl hT ho (nodup_flat T _ _) s
    (fun o h ht => by
      obtain ⟨k, _, rfl | ⟨m, _, _, rfl⟩⟩ := mem_flatOps h <;> cases ht)
  rw [← hs1] at hu hf
  set Q := qAll b (A.d.m - p * b) w ib id V T s1 (flatOps V.d.mt V.d.nt) with hQ
  have ha' : ∀ r c, (∀ r' c', r' < V.d.mt → c' < V.d.nt → A.at' r c ≠ V.at' r' c') → s1 (A.at' r c) = s (A.at' r c) := by
    intro r c h
    refine (fac_writes_tiles hin).frame s ?_
    rintro (⟨r', c', h1, h2, e⟩ | ⟨r', c', e⟩)
    · exact h r' c' h1 h2 e
    · exact TMat.at'_ne hT e.symm
  have hw2 : Writes (fun x => ∃ r c, x = C.at' r c) (if g then pzunmqr (α := α) true true V T C else []) := by
    split
    · rw [pzunmqr_left_eq aV aC rfl]
      refine Writes.flatMap fun o _ => Writes.mono (updL_writes o) ?_
      rintro x ⟨r, n, _, _, e⟩
      exact ⟨r, n, e⟩
    · intro t ht; cases ht
  have hb' : ∀ r c, (∀ r' c', A.at' r c ≠ C.at' r' c') → s' (A.at' r c) = s1 (A.at' r c) := by
    intro r c h
    rw [hs']
    refine hw2.frame s1 ?_
    rintro ⟨r', c', e⟩
    exact h r' c' e
  have hVa : ∀ r c, V.at' r c = A.at' (p + r) (q + c) := fun r c => sub_at' hA _ _ _ _ _ _
  have hCa : ∀ r c, C.at' r c = A.at' (p + r) (q + 1 + c) := fun r c => sub_at' hA _ _ _ _ _ _
  have hVe : ∀ s r c, V.el (α := α) s r c = A.el s (p * b + r) (q * b + c) := fun s r c => sub_el' hA _ _ _ _ _ _ _
  have hCe : ∀ s r c, C.el (α := α) s r c = A.el s (p * b + r) ((q + 1) * b + c) := fun s r c => sub_el' hA _ _ _ _ _ _ _
  have hcol : ∀ r c, c < (q + 1) * b → A.el s' r c = A.el s1 r c := by
    intro r c hc
    have h1 : c / A.d.nb < q + 1 := by rw [hA.nb, Nat.div_lt_iff_lt_mul hb]; exact hc
    unfold TMat.el
    rw [hb']
    intro r' c' e
    rw [hCa] at e
    have := (TMat.at'_inj.mp e).2
    omega
  refine ⟨Q, hu, ⟨?_, ?_⟩, ?_, ?_, ?_⟩
  · rw [hQ]
    unfold qAll
    refine congrArg List.prod (List.map_congr_left fun o h => ?_)
    have h2 := inB_col (hin o h)
    refine opQ_congr ?_ ?_
    · rw [hVa, hb']
      intro r' c' e
      rw [hCa] at e
      have := (TMat.at'_inj.mp e).2
      omega
    · rw [hs']
      refine (hw2.frame s1 ?_).symm
      rintro ⟨r', c', e⟩
      exact TMat.at'_ne (show T.id ≠ C.id from hT) e
  · intro x h1 h2
    rw [hs', hw2.frame s1, hs1, (fac_writes_tiles hin).frame s]
    · rintro (⟨r', c', _, _, e⟩ | ⟨r', c', e⟩)
      · exact h1 r' c' (by rw [e, hVa])
      · exact h2 r' c' e
    · rintro ⟨r', c', e⟩
      exact h1 r' (1 + c') (by rw [e, hCa, Nat.add_assoc])
  · intro r c hr hc
    rw [← hVe, ← hf r c hr hc]
    refine lmul_eq hr fun l _ => ?_
    unfold triu
    split
    · show A.el s' (p * b + l) (q * b + c) = V.el s1 l c
      rw [hVe, hcol]
      rw [Nat.add_mul, Nat.one_mul]; omega
    · rfl
  · intro r c hr hc hcn
    have hgg : g := hg (lt_of_le_of_lt hc hcn)
    obtain ⟨c', rfl⟩ := Nat.exists_eq_add_of_le hc
    rw [if_pos hgg, pzunmqr_left_eq aV aC rfl, hTb] at hs'
    have hc' : c' < C.d.n := by show c' < A.d.n - (q + 1) * b; omega
    have key : ∀ r, r < A.d.m - p * b → C.el s' r c' = lmul Qᴴ (C.el s1) r c' := by
      intro r hr
      rw [hs']
      exact unmqr_left_tiles (t := true) (off := id) aV aC (mm := A.d.m - p * b) (na := w) rfl rfl rfl hT hin
        (fun o h r n e => by
          rw [hVa, hCa] at e
          have h1 := (TMat.at'_inj.mp e).2
          have h2 := inB_col (hin o h)
          omega) s1 hr hc'
    have h1 : lmul Q (fun r c => A.el s' (p * b + r) c) r ((q + 1) * b + c') = lmul Q (lmul Qᴴ (C.el s1)) r c' := by
      refine lmul_eq hr fun l hl => ?_
      rw [← key l hl, hCe]
    rw [h1, lmul_lmul _ _ _ _ hr, show Q * Qᴴ = 1 from (mem_unitaryGroup_iff).mp hu, lmul_one, hCe]
    unfold TMat.el
    rw [ha']
    intro r' c'' h3 h4 e
    rw [hVa] at e
    have h5 := (TMat.at'_inj.mp e).2
    rw [hA.nb, Nat.mul_comm, Nat.mul_add_div hb] at h5
    have h6 : c'' < 1 := lt_of_lt_of_le h4 hVnt
    generalize c' / b = z at h5
    omega
  · intro r c hrc
    have h1 : ∀ r' c', A.at' (r / A.d.mb) (c / A.d.nb) ≠ A.at' (p + r') (q + c') := by
      intro r' c' e
      have h := TMat.at'_inj.mp e
      rw [hA.mb, hA.nb] at h
      rcases hrc with hr | hc
      · have := (Nat.div_lt_iff_lt_mul hb).mpr hr; omega
      · have := (Nat.div_lt_iff_lt_mul hb).mpr hc; omega
    unfold TMat.el
    rw [hb' _ _ (fun r' c' e => h1 r' (1 + c') (by rw [e, hCa, Nat.add_assoc])),
      ha' _ _ (fun r' c' _ _ e => h1 r' c' (by rw [e, hVa]))]

/-- Correspondence of the `T` tiles: transposition. -/
def tFlip (id : M) : Flip M where
  tid := id
  pos r c := (c, r)
  dom _ _ := True
  inj := by
    intro r c r' c' _ _ e
    simp only [Prod.mk.injEq] at e
    omega

theorem tFlip_nm (id : M) (x : M × Nat × Nat) : (tFlip id).nm x = (x.1, x.2.2, x.2.1) := by
  unfold Flip.nm
  split
  · next h => rw [h]; rfl
  · rfl

theorem tFlip_ok (T : TMat M) (o : Op) : TSim (tFlip T.id) id id T T.trp o := by
  have hn : ∀ r c, (tFlip T.id).nm (T.trp.at' r c) = T.at' c r := fun r c => by
    unfold Flip.nm
    exact if_pos rfl
  cases o with
  | ge j k => exact ⟨rfl, fun _ => trivial, (hn _ _).symm⟩
  | ts j m k => exact ⟨rfl, fun _ => trivial, (hn _ _).symm⟩
  | tt j m k => exact ⟨rfl, fun _ => trivial, (hn _ _).symm⟩

/-- **LQ step**: the panel of `h` rows at tile `(p, q)` is factored, `Q^H` is applied to the rows below it. -/
theorem lq_step (hK : QrSpec K) (hib : 0 < ib) (hA : A.Al b) (hT : T.id ≠ A.id) (hTb : T.d.mb = ib) {p q h : Nat}
    (hh : h ≤ b) {g : Prop} [Decidable g] (hg : (p + 1) * b < A.d.m → g) (s : Store (M × Nat × Nat) α) {s' : Store (M × Nat × Nat) α}
    (hs' : s' = texec (pzgelqf K (A.sub (p * b) (q * b) h (A.d.n - q * b)) T ++
      if g then pzunmlq false true (A.sub (p * b) (q * b) h (A.d.n - q * b)) T
        (A.sub ((p + 1) * b) (q * b) (A.d.m - (p + 1) * b) (A.d.n - q * b)) else []) s) :
    ∃ Q ∈ unitaryGroup (Fin (A.d.n - q * b)) α, (Q = lqAll (tFlip T.id) b h (A.d.n - q * b) ib id
          (A.sub (p * b) (q * b) h (A.d.n - q * b)) T.trp s'
        (flatOps (A.sub (p * b) (q * b) h (A.d.n - q * b)).d.nt (A.sub (p * b) (q * b) h (A.d.n - q * b)).d.mt) ∧
        ∀ x, (∀ r c, x ≠ A.at' (p + r) (q + c)) → (∀ r c, x ≠ T.at' r c) → s' x = s x) ∧
      (∀ r c, r < h → c < A.d.n - q * b →
        rmul (tril fun r c => A.el s' (p * b + r) (q * b + c)) Q r c = A.el s (p * b + r) (q * b + c)) ∧
      (∀ r c, (p + 1) * b ≤ r → r < A.d.m → c < A.d.n - q * b →
        rmul (fun r c => A.el s' r (q * b + c)) Q r c = A.el s r (q * b + c)) ∧
      ∀ r c, r < p * b ∨ c < q * b → A.el s' r c = A.el s r c := by
  have hb := hA.pos
  set V := A.sub (p * b) (q * b) h (A.d.n - q * b) with hV
  set C := A.sub ((p + 1) * b) (q * b) (A.d.m - (p + 1) * b) (A.d.n - q * b) with hC
  have aV : V.Al b := sub_al' hA _ _ _ _
  have aC : C.Al b := sub_al' hA _ _ _ _
  have hVmt : V.d.mt ≤ 1 := by rw [aV.mt_eq]; exact ceilDiv_le_one hb hh
  have ho := flatOps_ok V.d.nt V.d.mt
  have hin := ops_inB ho
  have hCnt : C.d.nt = V.d.nt := by rw [aC.nt_eq, aV.nt_eq]; rfl
  rw [texec_append, pzgelqf_eq K aV, hTb] at hs'
  set s1 := texec ((flatOps V.d.nt V.d.mt).flatMap (lfacT K ib id V T)) s with hs1
  have hsim : ∀ o ∈ flatOps V.d.nt V.d.mt, TSim (tFlip T.id) id id T T.trp o := fun o _ => tFlip_ok T o
  obtain ⟨hu, hf⟩ := lfac_ok (F := tFlip T.id) (T' := T.trp) (off := id) (off' := id) (T := T) hK hib aV (mm := h)
    (na := A.d.n - q * b) rfl rfl hT.symm ho (nodup_flat _ _ _) rfl hsim s
    (fun o h ht => by
      obtain ⟨k, _, rfl | ⟨m, _, _, rfl⟩⟩ := mem_flatOps h <;> cases ht)
  rw [← hs1] at hu hf
  set Q := lqAll (tFlip T.id) b h (A.d.n - q * b) ib id V T.trp s1 (flatOps V.d.nt V.d.mt) with hQ
  have ha' : ∀ r c, (∀ r' c', r' < V.d.mt → c' < V.d.nt → A.at' r c ≠ V.at' r' c') → s1 (A.at' r c) = s (A.at' r c) := by
    intro r c h
    refine (lfac_writes_tiles hin).frame s ?_
    rintro (⟨r', c', h1, h2, e⟩ | ⟨r', c', e⟩)
    · exact h r' c' h1 h2 e
    · exact TMat.at'_ne hT e.symm
  have hw2 : Writes (fun x => ∃ r c, x = C.at' r c) (if g then pzunmlq (α := α) false true V T C else []) := by
    split
    · rw [pzunmlq_right_eq aV aC rfl]
      refine Writes.flatMap fun o h => Writes.mono (lupdR_writes_tiles (N := V.d.mt) ?_) ?_
      · rw [hCnt]; exact hin o h
      · rintro x ⟨r, n, _, _, e⟩
        exact ⟨r, n, e⟩
    · intro t ht; cases ht
  have hb' : ∀ r c, (∀ r' c', A.at' r c ≠ C.at' r' c') → s' (A.at' r c) = s1 (A.at' r c) := by
    intro r c h
    rw [hs']
    refine hw2.frame s1 ?_
    rintro ⟨r', c', e⟩
    exact h r' c' e
  have hVa : ∀ r c, V.at' r c = A.at' (p + r) (q + c) := fun r c => sub_at' hA _ _ _ _ _ _
  have hCa : ∀ r c, C.at' r c = A.at' (p + 1 + r) (q + c) := fun r c => sub_at' hA _ _ _ _ _ _
  have hVe : ∀ s r c, V.el (α := α) s r c = A.el s (p * b + r) (q * b + c) := fun s r c => sub_el' hA _ _ _ _ _ _ _
  have hCe : ∀ s r c, C.el (α := α) s r c = A.el s ((p + 1) * b + r) (q * b + c) := fun s r c => sub_el' hA _ _ _ _ _ _ _
  have hrow : ∀ r c, r < (p + 1) * b → A.el s' r c = A.el s1 r c := by
    intro r c hc
    have h1 : r / A.d.mb < p + 1 := by rw [hA.mb, Nat.div_lt_iff_lt_mul hb]; exact hc
    unfold TMat.el
    rw [hb']
    intro r' c' e
    rw [hCa] at e
    have := (TMat.at'_inj.mp e).1
    omega
  refine ⟨Q, hu, ⟨?_, ?_⟩, ?_, ?_, ?_⟩
  · rw [hQ]
    unfold lqAll qAll
    refine congrArg _ (congrArg List.prod (List.map_congr_left fun o h => ?_))
    have h2 := inB_col (hin o h)
    refine opQ_congr ?_ ?_
    · unfold Flip.tr
      refine congrArg _ ?_
      rw [tFlip_nm]
      show s1 (V.at' o.col o.row) = s' (V.at' o.col o.row)
      rw [hVa, hb']
      intro r' c' e
      rw [hCa] at e
      have := (TMat.at'_inj.mp e).1
      omega
    · unfold Flip.tr
      refine congrArg _ ?_
      rw [tFlip_nm]
      show s1 (T.at' (opTc id o) o.row) = s' (T.at' (opTc id o) o.row)
      rw [hs']
      refine (hw2.frame s1 ?_).symm
      rintro ⟨r', c', e⟩
      exact TMat.at'_ne (show T.id ≠ C.id from hT) e
  · intro x h1 h2
    rw [hs', hw2.frame s1, hs1, (lfac_writes_tiles hin).frame s]
    · rintro (⟨r', c', _, _, e⟩ | ⟨r', c', e⟩)
      · exact h1 r' c' (by rw [e, hVa])
      · exact h2 r' c' e
    · rintro ⟨r', c', e⟩
      exact h1 (1 + r') c' (by rw [e, hCa, Nat.add_assoc])
  · intro r c hr hc
    rw [← hVe, ← hf r c hr hc]
    refine rmul_eq hc fun l _ => ?_
    unfold tril
    split
    · show A.el s' (p * b + r) (q * b + l) = V.el s1 r l
      rw [hVe, hrow]
      rw [Nat.add_mul, Nat.one_mul]; omega
    · rfl
  · intro r c hr hrm hc
    have hgg : g := hg (lt_of_le_of_lt hr hrm)
    obtain ⟨r', rfl⟩ := Nat.exists_eq_add_of_le hr
    rw [if_pos hgg, pzunmlq_right_eq aV aC rfl, hTb] at hs'
    have hr' : r' < C.d.m := by show r' < A.d.m - (p + 1) * b; omega
    have key : ∀ c, c < A.d.n - q * b → C.el s' r' c = rmul (C.el s1) Qᴴ r' c := by
      intro c hc
      rw [hs']
      exact unmlq_right_tiles (t := true) (F := tFlip T.id) (T' := T.trp) (off := id) (off' := id) false aV aC (mm := h)
        (na := A.d.n - q * b) rfl rfl rfl hT.symm hT.symm rfl hin hsim
        (fun o h r n e => by
          rw [hVa, hCa] at e
          have h1 := (TMat.at'_inj.mp e).1
          have h2 := inB_col (hin o h)
          omega) s1 hr' hc
    have h1 : rmul (fun r c => A.el s' r (q * b + c)) Q ((p + 1) * b + r') c = rmul (rmul (C.el s1) Qᴴ) Q r' c := by
      refine rmul_eq hc fun l hl => ?_
      rw [← key l hl, hCe]
    rw [h1, rmul_rmul _ _ _ _ hc, show Qᴴ * Q = 1 from (mem_unitaryGroup_iff').mp hu, rmul_one, hCe]
    unfold TMat.el
    rw [ha']
    intro r'' c'' h3 h4 e
    rw [hVa] at e
    have h5 := (TMat.at'_inj.mp e).1
    rw [hA.mb, Nat.mul_comm, Nat.mul_add_div hb] at h5
    have h6 : r'' < 1 := lt_of_lt_of_le h3 hVmt
    generalize r' / b = z at h5
    omega
  · intro r c hrc
    have h1 : ∀ r' c', A.at' (r / A.d.mb) (c / A.d.nb) ≠ A.at' (p + r') (q + c') := by
      intro r' c' e
      have h := TMat.at'_inj.mp e
      rw [hA.mb, hA.nb] at h
      rcases hrc with hr | hc
      · have := (Nat.div_lt_iff_lt_mul hb).mpr hr; omega
      · have := (Nat.div_lt_iff_lt_mul hb).mpr hc; omega
    unfold TMat.el
    rw [hb' _ _ (fun r' c' e => h1 (1 + r') c' (by rw [e, hCa, Nat.add_assoc])),
      ha' _ _ (fun r' c' _ _ e => h1 r' c' (by rw [e, hVa]))]

end

end Verif.Qr

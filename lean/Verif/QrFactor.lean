/-
The tile QR factorization: products of the transformations of a legal list of operations.
-/
import Verif.QrApply

namespace Verif.Qr

open Verif.Layout Verif.Tile Verif.Tree Finset Matrix

set_option linter.unusedSectionVars false

universe u v

section
variable {M : Type u} {α : Type v} [CommRing α] [StarRing α]

/-- Product of the transformations of a list of operations. -/
def qAll (b mm na ib : Nat) (off : Nat → Nat) (A T : TMat M) (s : Store (M × Nat × Nat) α) (ops : List Op) :
    Matrix (Fin mm) (Fin mm) α :=
  (ops.map (opQ b mm na ib off A T s)).prod

theorem opQ_congr {b mm na ib : Nat} {off : Nat → Nat} {A T : TMat M} {s s' : Store (M × Nat × Nat) α} {o : Op}
    (h1 : s (A.at' o.row o.col) = s' (A.at' o.row o.col))
    (h2 : s (T.at' o.row (opTc off o)) = s' (T.at' o.row (opTc off o))) :
    opQ b mm na ib off A T s o = opQ b mm na ib off A T s' o := by
  unfold opQ opq
  rw [h1, h2]

section apply
variable {b mm na ib : Nat} {off : Nat → Nat} {t : Bool} {A T C : TMat M}

/-- Application from the left, when no tile of the reflectors is a tile of `C`. -/
theorem applyL_tiles (hA : A.Al b) (hC : C.Al b) (hAm : A.d.m = mm) (hAn : A.d.n = na) (hCm : C.d.m = mm)
    (hT : T.id ≠ C.id) {L : List Op} (hL : ∀ o ∈ L, o.inB A.d.mt A.d.nt)
    (hV : ∀ o ∈ L, ∀ r n, A.at' o.row o.col ≠ C.at' r n) (s : Store (M × Nat × Nat) α) {r c : Nat} (hr : r < mm) (hc : c < C.d.n) :
    C.el (texec (L.flatMap (updL t ib off A T C (List.range C.d.nt))) s) r c =
      lmul ((L.map fun o => qop t (opQ b mm na ib off A T s o)).reverse.prod) (C.el s) r c := by
  induction L generalizing s r c with
  | nil => simp only [List.flatMap_nil, texec_nil, List.map_nil, List.reverse_nil, List.prod_nil, lmul_one]
  | cons o L ih =>
    rw [List.flatMap_cons, texec_append, ih (fun o' h' => hL o' (by simp [h'])) (fun o' h' => hV o' (by simp [h'])) _ hr hc]
    set s1 := texec (updL t ib off A T C (List.range C.d.nt) o) s with hs1
    have hfr : ∀ x : M × Nat × Nat, (∀ r n, x ≠ C.at' r n) → s1 x = s x := fun x hx => by
      refine (updL_writes o).frame s fun ⟨r, n, _, _, e⟩ => hx _ _ e
    have e1 : (L.map fun o => qop t (opQ b mm na ib off A T s1 o)) = L.map fun o => qop t (opQ b mm na ib off A T s o) := by
      refine List.map_congr_left fun o' h' => ?_
      rw [opQ_congr (hfr _ (hV o' (by simp [h']))) (hfr _ fun _ _ => TMat.at'_ne hT)]
    rw [e1, List.map_cons, List.reverse_cons, List.prod_append, List.prod_singleton, ← lmul_lmul _ _ _ _ hr]
    refine lmul_eq hr fun l hl => ?_
    rw [hs1, updL_el hA hC hAm hAn hCm List.nodup_range (fun n hn => List.mem_range.mp hn) (hL o (by simp)) hT
      (fun r n _ => hV o (by simp) r n) s l c hl hc, if_pos (List.mem_range.mpr (hC.col_nt hc))]

theorem applyR (hA : A.Al b) (hC : C.Al b) (hAm : A.d.m = mm) (hAn : A.d.n = na) (hCm : C.d.n = mm)
    (hT : T.id ≠ C.id) (hV : A.id ≠ C.id) {L : List Op} (hL : ∀ o ∈ L, o.inB A.d.mt A.d.nt)
    (s : Store (M × Nat × Nat) α) {r c : Nat} (hr : r < C.d.m) (hc : c < mm) :
    C.el (texec (L.flatMap (updR t ib off A T C (List.range C.d.mt))) s) r c =
      rmul (C.el s) ((L.map fun o => qop t (opQ b mm na ib off A T s o)).prod) r c := by
  induction L generalizing s r c with
  | nil => simp only [List.flatMap_nil, texec_nil, List.map_nil, List.prod_nil, rmul_one]
  | cons o L ih =>
    rw [List.flatMap_cons, texec_append, ih (fun o' h' => hL o' (by simp [h'])) _ hr hc]
    set s1 := texec (updR t ib off A T C (List.range C.d.mt) o) s with hs1
    have hfr : ∀ x : M × Nat × Nat, x.1 ≠ C.id → s1 x = s x := fun x hx => by
      refine (updR_writes o).frame s fun ⟨r, n, _, _, e⟩ => hx (by rw [e]; rfl)
    have e1 : (L.map fun o => qop t (opQ b mm na ib off A T s1 o)) = L.map fun o => qop t (opQ b mm na ib off A T s o) := by
      refine List.map_congr_left fun o' _ => ?_
      rw [opQ_congr (hfr _ hV) (hfr _ hT)]
    rw [e1, List.map_cons, List.prod_cons, ← rmul_rmul _ _ _ _ hc]
    refine rmul_eq hc fun l hl => ?_
    rw [hs1, updR_el hA hC hAm hAn hCm List.nodup_range (fun n hn => List.mem_range.mp hn) (hL o (by simp)) hT
      hV s r l hr hl, if_pos (List.mem_range.mpr (hC.row_mt hr))]

theorem prod_star {ι : Type} {n : Nat} (f : ι → Matrix (Fin n) (Fin n) α) (L : List ι) :
    ((L.map f).prod)ᴴ = ((L.map fun o => (f o)ᴴ).reverse).prod := by
  induction L with
  | nil => simp
  | cons o L ih =>
    rw [List.map_cons, List.prod_cons, conjTranspose_mul, ih, List.map_cons, List.reverse_cons, List.prod_append,
      List.prod_singleton]

/-- `plasma_pzunmqr_tree`, and `plasma_pzunmqr`, for any list of operations, when no tile of the reflectors
is a tile of `C`. -/
theorem unmqr_left_tiles (hA : A.Al b) (hC : C.Al b) (hAm : A.d.m = mm) (hAn : A.d.n = na) (hCm : C.d.m = mm)
    (hT : T.id ≠ C.id) {L : List Op} (hL : ∀ o ∈ L, o.inB A.d.mt A.d.nt)
    (hV : ∀ o ∈ L, ∀ r n, A.at' o.row o.col ≠ C.at' r n) (s : Store (M × Nat × Nat) α) {r c : Nat} (hr : r < mm) (hc : c < C.d.n) :
    C.el (texec ((if t then L else L.reverse).flatMap (updL t ib off A T C (List.range C.d.nt))) s) r c =
      lmul (qop t (qAll b mm na ib off A T s L)) (C.el s) r c := by
  cases t with
  | true =>
    rw [if_pos rfl, applyL_tiles hA hC hAm hAn hCm hT hL hV s hr hc]
    simp only [qop, if_true, qAll, prod_star]
  | false =>
    rw [if_neg (by decide), applyL_tiles hA hC hAm hAn hCm hT (fun o h => hL o (List.mem_reverse.mp h))
      (fun o h => hV o (List.mem_reverse.mp h)) s hr hc]
    simp only [qop, Bool.false_eq_true, if_false, qAll, List.map_reverse, List.reverse_reverse]

/-- `plasma_pzunmqr_tree`, and `plasma_pzunmqr`, for any list of operations. -/
theorem unmqr_left (hA : A.Al b) (hC : C.Al b) (hAm : A.d.m = mm) (hAn : A.d.n = na) (hCm : C.d.m = mm)
    (hT : T.id ≠ C.id) (hV : A.id ≠ C.id) {L : List Op} (hL : ∀ o ∈ L, o.inB A.d.mt A.d.nt)
    (s : Store (M × Nat × Nat) α) {r c : Nat} (hr : r < mm) (hc : c < C.d.n) :
    C.el (texec ((if t then L else L.reverse).flatMap (updL t ib off A T C (List.range C.d.nt))) s) r c =
      lmul (qop t (qAll b mm na ib off A T s L)) (C.el s) r c :=
  unmqr_left_tiles hA hC hAm hAn hCm hT hL (fun _ _ _ _ => TMat.at'_ne hV) s hr hc

theorem unmqr_right (hA : A.Al b) (hC : C.Al b) (hAm : A.d.m = mm) (hAn : A.d.n = na) (hCm : C.d.n = mm)
    (hT : T.id ≠ C.id) (hV : A.id ≠ C.id) {L : List Op} (hL : ∀ o ∈ L, o.inB A.d.mt A.d.nt)
    (s : Store (M × Nat × Nat) α) {r c : Nat} (hr : r < C.d.m) (hc : c < mm) :
    C.el (texec ((if t then L.reverse else L).flatMap (updR t ib off A T C (List.range C.d.mt))) s) r c =
      rmul (C.el s) (qop t (qAll b mm na ib off A T s L)) r c := by
  cases t with
  | true =>
    rw [if_pos rfl, applyR hA hC hAm hAn hCm hT hV (fun o h => hL o (List.mem_reverse.mp h)) s hr hc]
    simp only [qop, if_true, qAll, prod_star, List.map_reverse]
  | false =>
    rw [if_neg (by decide), applyR hA hC hAm hAn hCm hT hV hL s hr hc]
    simp only [qop, Bool.false_eq_true, if_false, qAll]

end apply

/-! ### Rows of an operation -/

theorem rho_hits {b mm : Nat} {o : Op} {i : Nat} (hi : i < opDim b mm o) : o.hits (opRho b mm o i / b) := by
  have two : ∀ k m, i < tdim mm b k + tdim mm b m →
      (if i < tdim mm b k then k * b + i else m * b + (i - tdim mm b k)) / b = k ∨
      (if i < tdim mm b k then k * b + i else m * b + (i - tdim mm b k)) / b = m := fun k m h => by
    split
    · next h' => exact Or.inl (div_of_tile (tdim_end h').2)
    · next h' => exact Or.inr (div_of_tile (tdim_end (mm := mm) (k := m) (i := i - tdim mm b k) (by omega)).2)
  cases o with
  | ge j k => exact div_of_tile (tdim_end hi).2
  | ts j m k => exact two k m hi
  | tt j m k => exact two k m hi

theorem hits_rho {b mm : Nat} (hb : 0 < b) {o : Op} {r : Nat} (hr : r < mm) (h : o.hits (r / b)) :
    ∃ i, i < opDim b mm o ∧ opRho b mm o i = r := by
  have hrb : r % b < tdim mm b (r / b) := mod_lt_tdim hb hr
  have two : ∀ k m, r / b = k ∨ r / b = m → ∃ i, i < tdim mm b k + tdim mm b m ∧
      (if i < tdim mm b k then k * b + i else m * b + (i - tdim mm b k)) = r := by
    rintro k m (h | h)
    · subst h
      exact ⟨r % b, by omega, by rw [if_pos hrb]; exact divmod r b⟩
    · subst h
      refine ⟨tdim mm b k + r % b, by omega, ?_⟩
      rw [if_neg (by omega), Nat.add_sub_cancel_left]; exact divmod r b
  cases o with
  | ge j k =>
    have h' : r / b = k := h
    subst h'
    exact ⟨r % b, hrb, divmod r b⟩
  | ts j m k => exact two k m h
  | tt j m k => exact two k m h

theorem lmul_gemb_zero {m d : Nat} {ρ : Nat → Nat} (h : RowMap m d ρ) (q : Matrix (Fin d) (Fin d) α)
    (X : Nat → Nat → α) {c : Nat} (hz : ∀ i, i < d → X (ρ i) c = 0) {r : Nat} :
    lmul (gemb m ρ q) X r c = X r c := by
  by_cases hr : ∃ i, i < d ∧ ρ i = r
  · obtain ⟨i, hi, rfl⟩ := hr
    rw [lmul_gemb_in h q X hi, hz i hi]
    unfold lmul
    rw [dif_pos hi]
    exact sum_eq_zero fun l _ => by dsimp only; rw [hz l l.2, mul_zero]
  · exact lmul_gemb_out q X (fun l hl e => hr ⟨l, hl, e⟩) c

/-! ### Generating the first columns of `Q` -/

theorem ok_inB {mt nt : Nat} {ts : TSt} {o : Op} (h : o.ok mt ts) (hc : o.col < nt) : o.inB mt nt := by
  cases o with
  | ge j k => exact ⟨hc, h.2.1⟩
  | ts j m k => exact ⟨hc, h.2.1, h.2.2.1⟩
  | tt j m k => exact ⟨hc, h.2.1, h.2.2.1⟩

theorem ok_zero {mt : Nat} {ts : TSt} {o : Op} (h : o.ok mt ts) {r c : Nat} (hr : o.hits r) (hc : c < o.col) :
    ts r c = .zero := by
  cases o with
  | ge j k => have hr' : r = k := hr; subst hr'; exact h.2.2.1 c hc
  | ts j m k => rcases hr with rfl | rfl; exacts [(h.2.2.2.1 c hc).1, (h.2.2.2.1 c hc).2]
  | tt j m k => rcases hr with rfl | rfl; exacts [(h.2.2.2.1 c hc).1, (h.2.2.2.1 c hc).2]

theorem ok_nz {mt : Nat} {ts : TSt} {o : Op} (h : o.ok mt ts) {r : Nat} (hr : o.hits r) : ts r o.col ≠ .zero := by
  cases o with
  | ge j k =>
    have hr' : r = k := hr
    subst hr'; show ts r j ≠ _; rw [h.2.2.2]; decide
  | ts j m k =>
    rcases hr with rfl | rfl
    · show ts r j ≠ _; rw [h.2.2.2.2.1]; decide
    · show ts r j ≠ _; rw [h.2.2.2.2.2]; decide
  | tt j m k =>
    rcases hr with rfl | rfl
    · show ts r j ≠ _; rw [h.2.2.2.2.1]; decide
    · show ts r j ≠ _; rw [h.2.2.2.2.2]; decide

theorem ok_ge {mt : Nat} {ts : TSt} {o : Op} (h : o.ok mt ts) {r : Nat} (hr : o.hits r) : o.col ≤ r := by
  cases o with
  | ge j k => have hr' : r = k := hr; subst hr'; exact h.1
  | ts j m k =>
    have h1 := h.1
    have h2 := h.2.1
    rcases hr with rfl | rfl <;> show j ≤ r <;> omega
  | tt j m k =>
    have h1 := h.1
    have h2 := h.2.1
    rcases hr with rfl | rfl <;> show j ≤ r <;> omega

/-- Tiles of started rows right of the column of an operation are full. -/
theorem ok_right {mt : Nat} {ts : TSt} (hI : RowInv ts) {o : Op} (h : o.ok mt ts) {r c : Nat} (hr : o.hits r)
    (hc : o.col < c) : ts r c = .full := by
  by_contra hne
  exact ok_nz h hr (hI r c hne _ hc)

theorem run_other {ts : TSt} {o : Op} {r c : Nat} (h : ¬ (o.hits r ∧ c = o.col)) : o.run ts r c = ts r c := by
  cases o with
  | ge j k => exact if_neg h
  | ts j m k => exact if_neg (fun e => h ⟨Or.inr e.1, e.2⟩)
  | tt j m k => exact if_neg (fun e => h ⟨Or.inr e.1, e.2⟩)

/-- The unit matrix. -/
def idE (r c : Nat) : α := if r = c then 1 else 0

theorem qAll_zero {b mm na ib : Nat} (hb : 0 < b) {off : Nat → Nat} {A T : TMat M} {s : Store (M × Nat × Nat) α}
    {mt nt : Nat} {ops : List Op} {ts : TSt} (hI : RowInv ts) (hL : LegalOps mt ts ops) (hcol : ∀ o ∈ ops, o.col < nt)
    (hz : ∀ r, ∀ c, r ≤ c → ts r c ≠ .zero) {r c : Nat} (hr : r < mm) (hrc : ts (r / b) (c / b) = .zero) :
    lmul (qAll b mm na ib off A T s ops) idE r c = 0 := by
  induction ops generalizing ts r c with
  | nil =>
    unfold qAll
    rw [List.map_nil, List.prod_nil, lmul_one]
    unfold idE
    rw [if_neg]
    rintro rfl
    exact hz _ _ (le_refl _) hrc
  | cons o ops ih =>
    have hI1 := rowInv_run hI hL.1
    have hz1 : ∀ r c, r ≤ c → o.run ts r c ≠ .zero := by
      intro r c hle
      cases o with
      | ge j k =>
        by_cases h : r = k ∧ c = j
        · show (if r = k ∧ c = j then Ts.tri else ts r c) ≠ _
          rw [if_pos h]; decide
        · rw [run_other (o := .ge j k) (by exact h)]; exact hz r c hle
      | ts j m k =>
        by_cases h : r = m ∧ c = j
        · have := hL.1.1; have := hL.1.2.1; omega
        · show (if r = m ∧ c = j then Ts.zero else ts r c) ≠ _
          rw [if_neg h]; exact hz r c hle
      | tt j m k =>
        by_cases h : r = m ∧ c = j
        · have := hL.1.1; have := hL.1.2.1; omega
        · show (if r = m ∧ c = j then Ts.zero else ts r c) ≠ _
          rw [if_neg h]; exact hz r c hle
    have ih' := fun {r c : Nat} => ih (r := r) (c := c) hI1 hL.2 (fun o' h' => hcol o' (by simp [h'])) hz1
    unfold qAll
    rw [List.map_cons, List.prod_cons, ← lmul_lmul _ _ _ _ hr]
    show lmul (gemb mm (opRho b mm o) (opq b mm na ib off A T s o)) (lmul (qAll b mm na ib off A T s ops) idE) r c = 0
    have hrm : RowMap mm (opDim b mm o) (opRho b mm o) := rowMap (ok_inB hL.1 (hcol o (by simp)))
    by_cases hh : o.hits (r / b)
    · have hlt : c / b < o.col := by
        by_contra hge
        rcases Nat.lt_or_ge o.col (c / b) with h | h
        · rw [ok_right hI hL.1 hh h] at hrc; exact absurd hrc (by decide)
        · have : c / b = o.col := by omega
          exact ok_nz hL.1 hh (this ▸ hrc)
      have hzz : ∀ i, i < opDim b mm o → lmul (qAll b mm na ib off A T s ops) idE (opRho b mm o i) c = 0 := by
        intro i hi
        refine ih' (hrm.lt i hi) ?_
        rw [run_other (by omega)]
        exact ok_zero hL.1 (rho_hits hi) hlt
      rw [lmul_gemb_zero hrm _ _ hzz]
      obtain ⟨i, hi, rfl⟩ := hits_rho hb hr hh
      exact hzz i hi
    · rw [lmul_gemb_out]
      · exact ih' hr (by rw [run_other (fun h => hh h.1)]; exact hrc)
      · intro l hl e
        exact hh (e ▸ rho_hits hl)

/-- `plasma_pzungqr_tree`, and `plasma_pzungqr`, for any legal list of operations. -/
theorem ungqr_el {b mm na ib : Nat} {off : Nat → Nat} {A T C : TMat M} (hA : A.Al b) (hC : C.Al b)
    (hAm : A.d.m = mm) (hAn : A.d.n = na) (hCm : C.d.m = mm) (hT : T.id ≠ C.id) (hV : A.id ≠ C.id)
    {ops : List Op} {ts : TSt} (hI : RowInv ts) (hL : LegalOps A.d.mt ts ops) (hcol : ∀ o ∈ ops, o.col < A.d.nt)
    (hz : ∀ r, ∀ c, r ≤ c → ts r c ≠ .zero) (s : Store (M × Nat × Nat) α)
    (h0 : ∀ r c, r < mm → c < C.d.n → C.el s r c = idE r c) {r c : Nat} (hr : r < mm) (hc : c < C.d.n) :
    C.el (texec (ops.reverse.flatMap fun o => updL false ib off A T C (span o.col C.d.nt) o) s) r c =
      lmul (qAll b mm na ib off A T s ops) idE r c := by
  induction ops generalizing ts r c with
  | nil =>
    unfold qAll
    simp only [List.reverse_nil, List.flatMap_nil, texec_nil, List.map_nil, List.prod_nil, lmul_one]
    exact h0 r c hr hc
  | cons o ops ih =>
    have hI1 := rowInv_run hI hL.1
    have hz1 : ∀ r c, r ≤ c → o.run ts r c ≠ .zero := by
      intro r c hle
      cases o with
      | ge j k =>
        by_cases h : r = k ∧ c = j
        · show (if r = k ∧ c = j then Ts.tri else ts r c) ≠ _
          rw [if_pos h]; decide
        · rw [run_other (o := .ge j k) (by exact h)]; exact hz r c hle
      | ts j m k =>
        by_cases h : r = m ∧ c = j
        · have := hL.1.1; have := hL.1.2.1; omega
        · show (if r = m ∧ c = j then Ts.zero else ts r c) ≠ _
          rw [if_neg h]; exact hz r c hle
      | tt j m k =>
        by_cases h : r = m ∧ c = j
        · have := hL.1.1; have := hL.1.2.1; omega
        · show (if r = m ∧ c = j then Ts.zero else ts r c) ≠ _
          rw [if_neg h]; exact hz r c hle
    have hcol' : ∀ o' ∈ ops, o'.col < A.d.nt := fun o' h' => hcol o' (by simp [h'])
    have ih' := fun {r c : Nat} => ih (r := r) (c := c) hI1 hL.2 hcol' hz1
    rw [List.reverse_cons, List.flatMap_append, texec_append, List.flatMap_cons, List.flatMap_nil, List.append_nil]
    set s1 := texec (ops.reverse.flatMap fun o => updL false ib off A T C (span o.col C.d.nt) o) s with hs1
    have hfr : ∀ x : M × Nat × Nat, x.1 ≠ C.id → s1 x = s x := fun x hx => by
      refine (Writes.flatMap fun o _ => (updL_writes o).mono (W' := fun x => x.1 = C.id) ?_).frame s hx
      rintro _ ⟨r, n, _, _, rfl⟩
      rfl
    have hin := ok_inB hL.1 (hcol o (by simp))
    have hrm : RowMap mm (opDim b mm o) (opRho b mm o) := rowMap hin
    rw [updL_el hA hC hAm hAn hCm nodup_span (fun n hn => (mem_span.mp hn).2) hin hT
      (fun r n _ => TMat.at'_ne hV) s1 r c hr hc]
    have e1 : opQ b mm na ib off A T s1 o = opQ b mm na ib off A T s o := opQ_congr (hfr _ hV) (hfr _ hT)
    have e2 : lmul (qAll b mm na ib off A T s (o :: ops)) idE r c =
        lmul (opQ b mm na ib off A T s o) (lmul (qAll b mm na ib off A T s ops) idE) r c := by
      unfold qAll
      rw [List.map_cons, List.prod_cons, ← lmul_lmul _ _ _ _ hr]
    rw [e2]
    split
    · rw [e1]
      exact lmul_eq hr fun l hl => ih' hl hc
    · next hnc =>
      have hlt : c / b < o.col := by
        by_contra hge
        exact hnc (mem_span.mpr ⟨by omega, hC.col_nt hc⟩)
      rw [ih' hr hc]
      unfold opQ
      rw [lmul_gemb_zero hrm]
      intro i hi
      refine qAll_zero hA.pos hI1 hL.2 hcol' hz1 (hrm.lt i hi) ?_
      rw [run_other (by omega)]
      exact ok_zero hL.1 (rho_hits hi) hlt

/-! ### The factorization kernels -/

/-- The part of the matrix that is not (yet) reflectors. -/
def hat (b : Nat) (ts : TSt) (X : Nat → Nat → α) (r c : Nat) : α :=
  match ts (r / b) (c / b) with
  | .full => X r c
  | .tri => if r % b ≤ c % b then X r c else 0
  | .zero => 0

/-- Elements that a later legal operation may write. -/
def live (ts : TSt) (A : TMat M) (x : M × Nat × Nat) (i j : Nat) : Prop :=
  ∃ r c, x = A.at' r c ∧ (ts r c = .full ∨ ts r c = .tri ∧ i ≤ j)

/-- The `T` tile of an operation. -/
def opTt (off : Nat → Nat) (T : TMat M) (o : Op) : M × Nat × Nat := T.at' o.row (opTc off o)

variable {K : QrKern α} {b mm na ib : Nat} {off : Nat → Nat} {A T : TMat M}

theorem kerT_writes {ts : TSt} {mt : Nat} {o : Op} (ho : o.ok mt ts) :
    WritesE (fun x i j => x = opTt off T o ∨ ∃ r, o.hits r ∧ x = A.at' r o.col ∧ (ts r o.col = .full ∨ ts r o.col = .tri ∧ i ≤ j))
      [kerT K ib off A T o] := by
  refine WritesE.single ?_
  cases o with
  | ge j k =>
    rintro x i i' ⟨w, hw, rfl, hr⟩
    simp only [List.mem_cons, List.not_mem_nil, or_false] at hw
    rcases hw with rfl | rfl
    · exact Or.inr ⟨k, rfl, rfl, Or.inl ho.2.2.2⟩
    · exact Or.inl rfl
  | ts j m k =>
    rintro x i i' ⟨w, hw, rfl, hr⟩
    simp only [List.mem_cons, List.not_mem_nil, or_false] at hw
    rcases hw with rfl | rfl | rfl
    · exact Or.inr ⟨k, Or.inl rfl, rfl, Or.inr ⟨ho.2.2.2.2.1, hr.1⟩⟩
    · exact Or.inr ⟨m, Or.inr rfl, rfl, Or.inl ho.2.2.2.2.2⟩
    · exact Or.inl rfl
  | tt j m k =>
    rintro x i i' ⟨w, hw, rfl, hr⟩
    simp only [List.mem_cons, List.not_mem_nil, or_false] at hw
    rcases hw with rfl | rfl | rfl
    · exact Or.inr ⟨k, Or.inl rfl, rfl, Or.inr ⟨ho.2.2.2.2.1, hr.1⟩⟩
    · exact Or.inr ⟨m, Or.inr rfl, rfl, Or.inr ⟨ho.2.2.2.2.2, hr.1⟩⟩
    · exact Or.inl rfl

theorem wy_pasteT {d k ib : Nat} {v t t0 : Nat → Nat → α} : wy d k ib v (paste (tReg ib k) t t0) = wy d k ib v t :=
  wy_congr (fun _ _ _ _ => rfl) fun _ _ h => paste_in h

theorem hat_full {ts : TSt} {X : Nat → Nat → α} {r c : Nat} (h : ts (r / b) (c / b) = .full) : hat b ts X r c = X r c := by
  unfold hat; rw [h]
theorem hat_tri {ts : TSt} {X : Nat → Nat → α} {r c : Nat} (h : ts (r / b) (c / b) = .tri) :
    hat b ts X r c = if r % b ≤ c % b then X r c else 0 := by
  unfold hat; rw [h]
theorem hat_zero {ts : TSt} {X : Nat → Nat → α} {r c : Nat} (h : ts (r / b) (c / b) = .zero) : hat b ts X r c = 0 := by
  unfold hat; rw [h]

/-- An operation on two triangles. -/
def isTT : Op → Bool
  | .tt _ _ _ => true
  | _ => false

/-- If the operation is one on two triangles, its `T` tile is zero. -/
def ZeroT (ib b : Nat) (off : Nat → Nat) (T : TMat M) (s : Store (M × Nat × Nat) α) (o : Op) : Prop :=
  isTT o = true → ∀ i j, i < ib → j < b → s (opTt off T o) i j = 0

/-- The kernel of an operation: its matrix is unitary, and times the new matrix it is the old one. -/
theorem ker_spec (hK : QrSpec K) (hib : 0 < ib) (hA : A.Al b) (hAm : A.d.m = mm) (hAn : A.d.n = na)
    (hT : T.id ≠ A.id) {ts : TSt} {o : Op} (ho : o.ok A.d.mt ts) (hc : o.col < A.d.nt)
    (s : Store (M × Nat × Nat) α) (hz : ZeroT ib b off T s o) :
    opq b mm na ib off A T ((kerT K ib off A T o).run s) o ∈ unitaryGroup (Fin (opDim b mm o)) α ∧
    ∀ i c, i < opDim b mm o → c < na → c / b = o.col →
      lmul (opq b mm na ib off A T ((kerT K ib off A T o).run s) o)
        (fun l => hat b (o.run ts) (A.el ((kerT K ib off A T o).run s)) (opRho b mm o l)) i c =
      hat b ts (A.el s) (opRho b mm o i) c := by
  have hb := hA.pos
  cases o with
  | ge j k =>
    have hj : j < A.d.nt := hc
    have hk : k < A.d.mt := ho.2.1
    have hst : ts k j = .full := ho.2.2.2
    have hst' : (Op.ge j k).run ts k j = .tri := if_pos ⟨rfl, rfl⟩
    simp only [kerT, opDim, opRho, opq, opK, opV, Op.row, Op.col, opTc]
    rw [hA.mview hk, hA.nview hj, hAm, hAn]
    unfold geqrtT
    set ws : List (Wr (M × Nat × Nat) α) :=
      [⟨A.at' k j, box (tdim mm b k) (tdim na b j), fun s => K.gA (tdim mm b k) (tdim na b j) ib (s (A.at' k j))⟩,
       ⟨T.at' k j, tReg ib (min (tdim mm b k) (tdim na b j)),
        fun s => K.gT (tdim mm b k) (tdim na b j) ib (s (A.at' k j))⟩] with hws
    have hnd : (ws.map Wr.t).Nodup := by
      simp only [hws, List.map_cons, List.map_nil, List.nodup_cons, List.mem_singleton, List.not_mem_nil,
        not_false_eq_true, List.nodup_nil, and_true]
      exact fun e => hT (congrArg Prod.fst e).symm
    have eA : (wop [] ws).run s (A.at' k j) = paste (box (tdim mm b k) (tdim na b j))
        (K.gA (tdim mm b k) (tdim na b j) ib (s (A.at' k j))) (s (A.at' k j)) :=
      wop_at hnd (w := ⟨A.at' k j, _, _⟩) List.mem_cons_self s
    have eT : (wop [] ws).run s (T.at' k j) = paste (tReg ib (min (tdim mm b k) (tdim na b j)))
        (K.gT (tdim mm b k) (tdim na b j) ib (s (A.at' k j))) (s (T.at' k j)) :=
      wop_at hnd (w := ⟨T.at' k j, _, _⟩) (List.mem_cons_of_mem _ List.mem_cons_self) s
    have hwy : wy (tdim mm b k) (min (tdim mm b k) (tdim na b j)) ib (geV ((wop [] ws).run s (A.at' k j)))
        ((wop [] ws).run s (T.at' k j)) =
        wy (tdim mm b k) (min (tdim mm b k) (tdim na b j)) ib
          (geV (K.gA (tdim mm b k) (tdim na b j) ib (s (A.at' k j))))
          (K.gT (tdim mm b k) (tdim na b j) ib (s (A.at' k j))) := by
      rw [eT, wy_pasteT, eA]
      refine wy_congr (fun r l hr hl => ?_) fun _ _ _ => rfl
      unfold geV
      split
      · rfl
      · split
        · rw [paste_in ⟨hr, by omega⟩]
        · rfl
    rw [hwy]
    refine ⟨hK.ge_unit _ _ _ _ hib, fun i c hi hcn hcj => ?_⟩
    have hc' : c = j * b + c % b := by rw [← hcj]; exact (divmod c b).symm
    have hcb : c % b < tdim na b j := by rw [← hcj]; exact mod_lt_tdim hb hcn
    have hcb' : c % b < b := Nat.mod_lt _ hb
    rw [hat_full (by rw [div_of_tile (tdim_end hi).2, hcj]; exact hst)]
    have e1 : A.el s (k * b + i) c = s (A.at' k j) i (c % b) := by
      conv_lhs => rw [hc']
      rw [hA.el_tile s (tdim_end hi).2 hcb']
    rw [e1, ← hK.ge_eq (tdim mm b k) (tdim na b j) ib (s (A.at' k j)) hib i (c % b) hi hcb]
    refine lmul_eq hi fun l hl => ?_
    rw [hat_tri (by rw [div_of_tile (tdim_end hl).2, hcj]; exact hst'), mod_of_tile (tdim_end hl).2]
    unfold triu
    have e2 : A.el ((wop [] ws).run s) (k * b + l) c = (wop [] ws).run s (A.at' k j) l (c % b) := by
      conv_lhs => rw [hc']
      rw [hA.el_tile _ (tdim_end hl).2 hcb']
    rw [e2, eA, paste_in ⟨hl, hcb⟩]
  | ts j m k =>
    have hj : j < A.d.nt := hc
    have hm : m < A.d.mt := ho.2.2.1
    have hkm : k < m := ho.2.1
    have hst1 : ts k j = .tri := ho.2.2.2.2.1
    have hst2 : ts m j = .full := ho.2.2.2.2.2
    have hst1' : (Op.ts j m k).run ts k j = .tri := by
      show (if k = m ∧ j = j then Ts.zero else ts k j) = _
      rw [if_neg (by omega)]; exact hst1
    have hst2' : (Op.ts j m k).run ts m j = .zero := if_pos ⟨rfl, rfl⟩
    have hbk : tdim mm b k = b := tdim_full hkm (hAm ▸ hA.lt_mt.mp hm)
    have hnb : tdim na b j ≤ tdim mm b k := by rw [hbk]; unfold tdim; omega
    have hmin : min (tdim mm b k + tdim mm b m) (tdim na b j) = tdim na b j := by omega
    have hm0 : 0 < tdim mm b m := tdim_pos hb (hAm ▸ hA.lt_mt.mp hm)
    have hn0 : 0 < tdim na b j := tdim_pos hb (hAn ▸ hA.lt_nt.mp hj)
    simp only [kerT, opDim, opRho, opq, opK, opV, Op.row, Op.col, opTc]
    rw [hA.mview hm, hA.nview hj, hAm, hAn]
    have hne : A.at' k j ≠ A.at' m j := fun e => by have := (TMat.at'_inj.mp e).1; omega
    unfold tsqrtT
    set ws : List (Wr (M × Nat × Nat) α) :=
      [⟨A.at' k j, upTo (tdim na b j), fun s => K.sA1 (tdim mm b m) (tdim na b j) ib (s (A.at' k j)) (s (A.at' m j)) (s (T.at' m (off j)))⟩,
       ⟨A.at' m j, box (tdim mm b m) (tdim na b j),
        fun s => K.sA2 (tdim mm b m) (tdim na b j) ib (s (A.at' k j)) (s (A.at' m j)) (s (T.at' m (off j)))⟩,
       ⟨T.at' m (off j), tReg ib (tdim na b j),
        fun s => K.sT (tdim mm b m) (tdim na b j) ib (s (A.at' k j)) (s (A.at' m j)) (s (T.at' m (off j)))⟩] with hws
    have hnd : (ws.map Wr.t).Nodup := by
      simp only [hws, List.map_cons, List.map_nil, List.nodup_cons, List.mem_cons, List.not_mem_nil,
        not_false_eq_true, List.nodup_nil, and_true, or_false, not_or]
      exact ⟨⟨hne, fun e => hT (congrArg Prod.fst e).symm⟩, fun e => hT (congrArg Prod.fst e).symm⟩
    have eA1 : (wop [] ws).run s (A.at' k j) = paste (upTo (tdim na b j))
        (K.sA1 (tdim mm b m) (tdim na b j) ib (s (A.at' k j)) (s (A.at' m j)) (s (T.at' m (off j)))) (s (A.at' k j)) :=
      wop_at hnd (w := ⟨A.at' k j, _, _⟩) List.mem_cons_self s
    have eA2 : (wop [] ws).run s (A.at' m j) = paste (box (tdim mm b m) (tdim na b j))
        (K.sA2 (tdim mm b m) (tdim na b j) ib (s (A.at' k j)) (s (A.at' m j)) (s (T.at' m (off j)))) (s (A.at' m j)) :=
      wop_at hnd (w := ⟨A.at' m j, _, _⟩) (List.mem_cons_of_mem _ List.mem_cons_self) s
    have eT : (wop [] ws).run s (T.at' m (off j)) = paste (tReg ib (tdim na b j))
        (K.sT (tdim mm b m) (tdim na b j) ib (s (A.at' k j)) (s (A.at' m j)) (s (T.at' m (off j)))) (s (T.at' m (off j))) :=
      wop_at hnd (w := ⟨T.at' m (off j), _, _⟩)
        (List.mem_cons_of_mem _ (List.mem_cons_of_mem _ List.mem_cons_self)) s
    simp only [hmin]
    have hwy : wy (tdim mm b k + tdim mm b m) (tdim na b j) ib (tsV (tdim mm b k) ((wop [] ws).run s (A.at' m j)))
        ((wop [] ws).run s (T.at' m (off j))) =
        wy (tdim mm b k + tdim mm b m) (tdim na b j) ib
          (tsV (tdim mm b k) (K.sA2 (tdim mm b m) (tdim na b j) ib (s (A.at' k j)) (s (A.at' m j)) (s (T.at' m (off j)))))
          (K.sT (tdim mm b m) (tdim na b j) ib (s (A.at' k j)) (s (A.at' m j)) (s (T.at' m (off j)))) := by
      rw [eT, wy_pasteT, eA2]
      refine wy_congr (fun r l hr hl => ?_) fun _ _ _ => rfl
      unfold tsV
      split
      · rfl
      · rw [paste_in ⟨by omega, hl⟩]
    rw [hwy]
    refine ⟨hK.ts_unit _ _ _ _ _ _ _ hm0 hn0 hib hnb, fun i c hi hcn hcj => ?_⟩
    have hc' : c = j * b + c % b := by rw [← hcj]; exact (divmod c b).symm
    have hcb : c % b < tdim na b j := by rw [← hcj]; exact mod_lt_tdim hb hcn
    have hcb' : c % b < b := Nat.mod_lt _ hb
    have hel : ∀ (s : Store (M × Nat × Nat) α) t i, i < b → A.el s (t * b + i) c = s (A.at' t j) i (c % b) := by
      intro s t i hi
      conv_lhs => rw [hc']
      rw [hA.el_tile s hi hcb']
    have e1 : hat b ts (A.el s) (if i < tdim mm b k then k * b + i else m * b + (i - tdim mm b k)) c =
        vstack (tdim mm b k) (triu (s (A.at' k j))) (s (A.at' m j)) i (c % b) := by
      unfold vstack
      split
      · next h =>
        rw [hat_tri (by rw [div_of_tile (tdim_end h).2, hcj]; exact hst1), mod_of_tile (tdim_end h).2, hel _ _ _ (tdim_end h).2]; rfl
      · next h =>
        have h' : i - tdim mm b k < tdim mm b m := by omega
        rw [hat_full (by rw [div_of_tile (tdim_end h').2, hcj]; exact hst2), hel _ _ _ (tdim_end h').2]
    rw [e1, ← hK.ts_eq (tdim mm b m) (tdim na b j) ib _ (s (A.at' m j)) (s (T.at' m (off j))) (tdim mm b k) hm0 hn0 hib hnb i (c % b) hi hcb]
    refine lmul_eq hi fun l hl => ?_
    unfold vstack
    split
    · next h =>
      rw [hat_tri (by rw [div_of_tile (tdim_end h).2, hcj]; exact hst1'), mod_of_tile (tdim_end h).2, hel _ _ _ (tdim_end h).2]
      unfold triu
      split
      · next h' => rw [eA1, paste_in ⟨h', hcb⟩]
      · rfl
    · next h =>
      have h' : l - tdim mm b k < tdim mm b m := by omega
      rw [hat_zero (by rw [div_of_tile (tdim_end h').2, hcj]; exact hst2')]
  | tt j m k =>
    have hj : j < A.d.nt := hc
    have hm : m < A.d.mt := ho.2.2.1
    have hkm : k < m := ho.2.1
    have hst1 : ts k j = .tri := ho.2.2.2.2.1
    have hst2 : ts m j = .tri := ho.2.2.2.2.2
    have hst1' : (Op.tt j m k).run ts k j = .tri := by
      show (if k = m ∧ j = j then Ts.zero else ts k j) = _
      rw [if_neg (by omega)]; exact hst1
    have hst2' : (Op.tt j m k).run ts m j = .zero := if_pos ⟨rfl, rfl⟩
    have hbk : tdim mm b k = b := tdim_full hkm (hAm ▸ hA.lt_mt.mp hm)
    have hnb : tdim na b j ≤ tdim mm b k := by rw [hbk]; unfold tdim; omega
    have hmin : min (tdim mm b k + tdim mm b m) (tdim na b j) = tdim na b j := by omega
    have hm0 : 0 < tdim mm b m := tdim_pos hb (hAm ▸ hA.lt_mt.mp hm)
    have hn0 : 0 < tdim na b j := tdim_pos hb (hAn ▸ hA.lt_nt.mp hj)
    have hz0 : ∀ l c, tReg ib (tdim na b j) l c → s (T.at' m (off j)) l c = 0 := fun l c h =>
      hz rfl l c h.2.1 (by have := h.2.2; unfold tdim at this; omega)
    simp only [kerT, opDim, opRho, opq, opK, opV, Op.row, Op.col, opTc]
    rw [hA.mview hm, hA.nview hj, hAm, hAn]
    have hne : A.at' k j ≠ A.at' m j := fun e => by have := (TMat.at'_inj.mp e).1; omega
    unfold ttqrtT
    set ws : List (Wr (M × Nat × Nat) α) :=
      [⟨A.at' k j, upTo (tdim na b j), fun s => K.tA1 (tdim mm b m) (tdim na b j) ib (s (A.at' k j)) (s (A.at' m j)) (s (T.at' m (off j)))⟩,
       ⟨A.at' m j, upBox (tdim mm b m) (tdim na b j),
        fun s => K.tA2 (tdim mm b m) (tdim na b j) ib (s (A.at' k j)) (s (A.at' m j)) (s (T.at' m (off j)))⟩,
       ⟨T.at' m (off j), tReg ib (tdim na b j),
        fun s => K.tT (tdim mm b m) (tdim na b j) ib (s (A.at' k j)) (s (A.at' m j)) (s (T.at' m (off j)))⟩] with hws
    have hnd : (ws.map Wr.t).Nodup := by
      simp only [hws, List.map_cons, List.map_nil, List.nodup_cons, List.mem_cons, List.not_mem_nil,
        not_false_eq_true, List.nodup_nil, and_true, or_false, not_or]
      exact ⟨⟨hne, fun e => hT (congrArg Prod.fst e).symm⟩, fun e => hT (congrArg Prod.fst e).symm⟩
    have eA1 : (wop [] ws).run s (A.at' k j) = paste (upTo (tdim na b j))
        (K.tA1 (tdim mm b m) (tdim na b j) ib (s (A.at' k j)) (s (A.at' m j)) (s (T.at' m (off j)))) (s (A.at' k j)) :=
      wop_at hnd (w := ⟨A.at' k j, _, _⟩) List.mem_cons_self s
    have eA2 : (wop [] ws).run s (A.at' m j) = paste (upBox (tdim mm b m) (tdim na b j))
        (K.tA2 (tdim mm b m) (tdim na b j) ib (s (A.at' k j)) (s (A.at' m j)) (s (T.at' m (off j)))) (s (A.at' m j)) :=
      wop_at hnd (w := ⟨A.at' m j, _, _⟩) (List.mem_cons_of_mem _ List.mem_cons_self) s
    have eT : (wop [] ws).run s (T.at' m (off j)) = paste (tReg ib (tdim na b j))
        (K.tT (tdim mm b m) (tdim na b j) ib (s (A.at' k j)) (s (A.at' m j)) (s (T.at' m (off j)))) (s (T.at' m (off j))) :=
      wop_at hnd (w := ⟨T.at' m (off j), _, _⟩)
        (List.mem_cons_of_mem _ (List.mem_cons_of_mem _ List.mem_cons_self)) s
    simp only [hmin]
    have hwy : wy (tdim mm b k + tdim mm b m) (tdim na b j) ib (ttV (tdim mm b k) ((wop [] ws).run s (A.at' m j)))
        ((wop [] ws).run s (T.at' m (off j))) =
        wy (tdim mm b k + tdim mm b m) (tdim na b j) ib
          (ttV (tdim mm b k) (K.tA2 (tdim mm b m) (tdim na b j) ib (s (A.at' k j)) (s (A.at' m j)) (s (T.at' m (off j)))))
          (K.tT (tdim mm b m) (tdim na b j) ib (s (A.at' k j)) (s (A.at' m j)) (s (T.at' m (off j)))) := by
      rw [eT, wy_pasteT, eA2]
      refine wy_congr (fun r l hr hl => ?_) fun _ _ _ => rfl
      unfold ttV
      split
      · rfl
      · split
        · next h => rw [paste_in ⟨h, by omega, hl⟩]
        · rfl
    rw [hwy]
    refine ⟨hK.tt_unit _ _ _ _ _ _ _ hm0 hn0 hib hnb hz0, fun i c hi hcn hcj => ?_⟩
    have hc' : c = j * b + c % b := by rw [← hcj]; exact (divmod c b).symm
    have hcb : c % b < tdim na b j := by rw [← hcj]; exact mod_lt_tdim hb hcn
    have hcb' : c % b < b := Nat.mod_lt _ hb
    have hel : ∀ (s : Store (M × Nat × Nat) α) t i, i < b → A.el s (t * b + i) c = s (A.at' t j) i (c % b) := by
      intro s t i hi
      conv_lhs => rw [hc']
      rw [hA.el_tile s hi hcb']
    have e1 : hat b ts (A.el s) (if i < tdim mm b k then k * b + i else m * b + (i - tdim mm b k)) c =
        vstack (tdim mm b k) (triu (s (A.at' k j))) (triu (s (A.at' m j))) i (c % b) := by
      unfold vstack
      split
      · next h =>
        rw [hat_tri (by rw [div_of_tile (tdim_end h).2, hcj]; exact hst1), mod_of_tile (tdim_end h).2, hel _ _ _ (tdim_end h).2]; rfl
      · next h =>
        have h' : i - tdim mm b k < tdim mm b m := by omega
        rw [hat_tri (by rw [div_of_tile (tdim_end h').2, hcj]; exact hst2), hel _ _ _ (tdim_end h').2,
          mod_of_tile (tdim_end h').2]
        rfl
    rw [e1, ← hK.tt_eq (tdim mm b m) (tdim na b j) ib _ (s (A.at' m j)) (s (T.at' m (off j))) (tdim mm b k) hm0 hn0 hib hnb hz0 i (c % b) hi hcb]
    refine lmul_eq hi fun l hl => ?_
    unfold vstack
    split
    · next h =>
      rw [hat_tri (by rw [div_of_tile (tdim_end h).2, hcj]; exact hst1'), mod_of_tile (tdim_end h).2, hel _ _ _ (tdim_end h).2]
      unfold triu
      split
      · next h' => rw [eA1, paste_in ⟨h', hcb⟩]
      · rfl
    · next h =>
      have h' : l - tdim mm b k < tdim mm b m := by omega
      rw [hat_zero (by rw [div_of_tile (tdim_end h').2, hcj]; exact hst2')]

/-! ### The factorization -/

theorem facT_writes {ts : TSt} {mt : Nat} (hI : RowInv ts) {o : Op} (ho : o.ok mt ts) :
    WritesE (fun x i j => x = opTt off T o ∨ live ts A x i j) (facT K ib off A T o) := by
  refine WritesE.cons ?_ ?_
  · intro t ht x i j hw
    rcases kerT_writes (K := K) (ib := ib) (off := off) (A := A) (T := T) ho t ht x i j hw with h | ⟨r, _, e, h⟩
    · exact Or.inl h
    · exact Or.inr ⟨r, o.col, e, h⟩
  · intro t ht x i j hw
    obtain ⟨r, n, hr, hn, e⟩ := updL_writes (α := α) (t := true) (ib := ib) (off := off) (A := A) (T := T) (C := A) o t ht x i j hw
    have hn' := (mem_span.mp hn).1
    exact Or.inr ⟨r, n, e, Or.inl (ok_right hI ho hr (by omega))⟩

/-- One operation with its updates. -/
theorem fac_step (hK : QrSpec K) (hib : 0 < ib) (hA : A.Al b) (hAm : A.d.m = mm) (hAn : A.d.n = na)
    (hT : T.id ≠ A.id) {ts : TSt} (hI : RowInv ts) {o : Op} (ho : o.ok A.d.mt ts) (hc : o.col < A.d.nt)
    (s : Store (M × Nat × Nat) α) (hz : ZeroT ib b off T s o) :
    opQ b mm na ib off A T (texec (facT K ib off A T o) s) o ∈ unitaryGroup (Fin mm) α ∧
    ∀ r c, r < mm → c < na →
      lmul (opQ b mm na ib off A T (texec (facT K ib off A T o) s) o)
        (hat b (o.run ts) (A.el (texec (facT K ib off A T o) s))) r c = hat b ts (A.el s) r c := by
  have hb := hA.pos
  have hin := ok_inB ho hc
  have hrm : RowMap mm (opDim b mm o) (opRho b mm o) := rowMap hin
  obtain ⟨hun, heq⟩ := ker_spec (off := off) hK hib hA hAm hAn hT ho hc s hz
  unfold facT
  rw [texec_cons]
  set s1 := (kerT K ib off A T o).run s with hs1
  set s2 := texec (updL true ib off A T A (span (o.col + 1) A.d.nt) o) s1 with hs2
  -- elements changed by the kernel
  have hk1 : ∀ r c, ¬ (o.hits (r / b) ∧ c / b = o.col) → A.el s1 r c = A.el s r c := by
    intro r c h
    have := (kerT_writes (K := K) (ib := ib) (off := off) (A := A) (T := T) ho).frame s
      (x := A.at' (r / b) (c / b)) (i := r % b) (j := c % b) (by
        rintro (e | ⟨r', hr', e, _⟩)
        · exact hT (congrArg Prod.fst e).symm
        · have h2 := TMat.at'_inj.mp e
          exact h ⟨h2.1 ▸ hr', h2.2⟩)
    simp only [TMat.el, hA.mb, hA.nb]
    exact this
  have hV : ∀ r n, n ∈ span (o.col + 1) A.d.nt → A.at' o.row o.col ≠ A.at' r n := by
    intro r n hn e
    have := (mem_span.mp hn).1
    have h2 := (TMat.at'_inj.mp e).2
    omega
  have hup := updL_el (t := true) (ib := ib) (off := off) hA hA hAm hAn hAm nodup_span (fun n hn => (mem_span.mp hn).2) hin hT hV s1
  rw [← hs2] at hup
  have eq2 : opq b mm na ib off A T s2 o = opq b mm na ib off A T s1 o := by
    unfold opq
    have h1 : s2 (A.at' o.row o.col) = s1 (A.at' o.row o.col) :=
      (updL_writes o).frame s1 (fun ⟨r, n, _, hn, e⟩ => hV r n hn e)
    have h2 : s2 (T.at' o.row (opTc off o)) = s1 (T.at' o.row (opTc off o)) :=
      (updL_writes o).frame s1 (fun ⟨r, n, _, _, e⟩ => TMat.at'_ne hT e)
    rw [h1, h2]
  have hQ1 : opQ b mm na ib off A T s1 o = gemb mm (opRho b mm o) (opq b mm na ib off A T s1 o) := rfl
  have hQ2 : opQ b mm na ib off A T s2 o = gemb mm (opRho b mm o) (opq b mm na ib off A T s1 o) := by
    rw [← eq2]; rfl
  rw [hQ2]
  set q := opq b mm na ib off A T s1 o with hq
  refine ⟨gemb_unitary hrm hun, fun r c hr hcn => ?_⟩
  have hqq : q * qᴴ = 1 := by
    have := mem_unitaryGroup_iff.mp hun
    rwa [star_eq_conjTranspose] at this
  rw [hAn] at hup
  by_cases hh : o.hits (r / b)
  · obtain ⟨i, hi, rfl⟩ := hits_rho hb hr hh
    rw [lmul_gemb_in hrm q _ hi]
    rcases Nat.lt_trichotomy (c / b) o.col with hlt | he | hgt
    · rw [hat_zero (ok_zero ho hh hlt)]
      unfold lmul
      rw [dif_pos hi]
      refine sum_eq_zero fun l _ => ?_
      have h0 : hat b (o.run ts) (A.el s2) (opRho b mm o l) c = 0 := by
        refine hat_zero ?_
        rw [run_other (by omega)]
        exact ok_zero ho (rho_hits l.2) hlt
      dsimp only
      rw [h0, mul_zero]
    · rw [← heq i c hi hcn he]
      refine lmul_eq hi fun l hl => ?_
      have h1 : A.el s2 (opRho b mm o l) c = A.el s1 (opRho b mm o l) c := by
        rw [hup _ c (hrm.lt l hl) hcn, if_neg (fun h => by have := (mem_span.mp h).1; omega)]
      unfold hat
      rw [h1]
    · rw [hat_full (ok_right hI ho hh hgt)]
      have h1 : ∀ l, l < opDim b mm o → hat b (o.run ts) (A.el s2) (opRho b mm o l) c =
          lmul qᴴ (fun l' => A.el s1 (opRho b mm o l')) l c := by
        intro l hl
        rw [hat_full (by rw [run_other (by omega)]; exact ok_right hI ho (rho_hits hl) hgt),
          hup _ c (hrm.lt l hl) hcn, if_pos (mem_span.mpr ⟨by omega, hA.col_nt (hAn ▸ hcn)⟩), hQ1, qop_gemb,
          lmul_gemb_in hrm _ _ hl]
        rfl
      rw [lmul_eq hi h1]
      rw [lmul_lmul _ _ _ _ hi, hqq, lmul_one]
      exact hk1 _ _ (by omega)
  · have hno : ∀ l, l < opDim b mm o → opRho b mm o l ≠ r := fun l hl e => hh (e ▸ rho_hits hl)
    rw [lmul_gemb_out q _ hno]
    have h1 : A.el s2 r c = A.el s r c := by
      rw [hup r c hr hcn]
      split
      · rw [hQ1, qop_gemb, lmul_gemb_out _ _ hno, hk1 _ _ (fun h => hh h.1)]
      · exact hk1 _ _ (fun h => hh h.1)
    unfold hat
    rw [run_other (fun h => hh h.1), h1]

theorem live_run {ts : TSt} {mt : Nat} {o : Op} (ho : o.ok mt ts) {x : M × Nat × Nat} {i j : Nat}
    (h : live (o.run ts) A x i j) : live ts A x i j := by
  obtain ⟨r, c, e, h⟩ := h
  refine ⟨r, c, e, ?_⟩
  cases o with
  | ge j' k =>
    by_cases h1 : r = k ∧ c = j'
    · left; rw [h1.1, h1.2]; exact ho.2.2.2
    · rw [run_other (o := .ge j' k) (by exact h1)] at h
      exact h
  | ts j' m k =>
    by_cases h1 : r = m ∧ c = j'
    · left; rw [h1.1, h1.2]; exact ho.2.2.2.2.2
    · have h2 : (Op.ts j' m k).run ts r c = ts r c := if_neg h1
      rw [h2] at h
      exact h
  | tt j' m k =>
    by_cases h1 : r = m ∧ c = j'
    · have h2 : (Op.tt j' m k).run ts r c = .zero := if_pos h1
      rw [h2] at h
      exact absurd h (by simp)
    · have h2 : (Op.tt j' m k).run ts r c = ts r c := if_neg h1
      rw [h2] at h
      exact h

/-- The reflectors of an operation are not in the live part. -/
theorem opq_stable {ts : TSt} {mt : Nat} {o : Op} (ho : o.ok mt ts) {s s' : Store (M × Nat × Nat) α}
    (h1 : ∀ i j, ¬ live (o.run ts) A (A.at' o.row o.col) i j →
      s' (A.at' o.row o.col) i j = s (A.at' o.row o.col) i j)
    (h2 : s' (opTt off T o) = s (opTt off T o)) : opQ b mm na ib off A T s' o = opQ b mm na ib off A T s o := by
  have two : ∀ r c, (o.run ts) r c = .zero → ∀ i j, ¬ live (o.run ts) A (A.at' r c) i j := by
    rintro r c hz i j ⟨r', c', e, h⟩
    obtain ⟨rfl, rfl⟩ := TMat.at'_inj.mp e
    rw [hz] at h
    exact absurd h (by simp)
  unfold opQ opq
  congr 1
  refine wy_congr (fun r l hr hl => ?_) fun l c h => by
    have := congrFun (congrFun h2 l) c
    exact this
  cases o with
  | ge j k =>
    show geV _ r l = geV _ r l
    unfold geV
    split
    · rfl
    · split
      · next hlt =>
        refine h1 r l ?_
        rintro ⟨r', c', e, h⟩
        obtain ⟨rfl, rfl⟩ := TMat.at'_inj.mp e
        have h3 : (Op.ge j k).run ts k j = .tri := if_pos ⟨rfl, rfl⟩
        rcases h with h | h
        · exact absurd (h3.symm.trans h) (by decide)
        · exact absurd h.2 (by omega)
      · rfl
  | ts j m k =>
    have h3 : s' (A.at' m j) = s (A.at' m j) := by
      funext i i'
      exact h1 i i' (two m j (if_pos ⟨rfl, rfl⟩) i i')
    show tsV _ (s' (A.at' m j)) r l = tsV _ (s (A.at' m j)) r l
    rw [h3]
  | tt j m k =>
    have h3 : s' (A.at' m j) = s (A.at' m j) := by
      funext i i'
      exact h1 i i' (two m j (if_pos ⟨rfl, rfl⟩) i i')
    show ttV _ (s' (A.at' m j)) r l = ttV _ (s (A.at' m j)) r l
    rw [h3]

theorem fac_frame {ops : List Op} {ts : TSt} {mt : Nat} (hI : RowInv ts) (hL : LegalOps mt ts ops) :
    WritesE (fun x i j => (∃ o ∈ ops, x = opTt off T o) ∨ live ts A x i j) (ops.flatMap (facT K ib off A T)) := by
  induction ops generalizing ts with
  | nil => exact WritesE.nil
  | cons o ops ih =>
    rw [List.flatMap_cons]
    refine WritesE.append ?_ ?_
    · intro t ht x i j hw
      rcases facT_writes hI hL.1 t ht x i j hw with h | h
      · exact Or.inl ⟨o, by simp, h⟩
      · exact Or.inr h
    · intro t ht x i j hw
      rcases ih (rowInv_run hI hL.1) hL.2 t ht x i j hw with ⟨o', h', e⟩ | h
      · exact Or.inl ⟨o', by simp [h'], e⟩
      · exact Or.inr (live_run hL.1 h)

/-- A legal list of operations factorizes: the product of the unitary matrices times what is left is the matrix.  The `T`
tiles of the operations on two triangles are zero before. -/
theorem fac_run (hK : QrSpec K) (hib : 0 < ib) (hA : A.Al b) (hAm : A.d.m = mm) (hAn : A.d.n = na)
    (hT : T.id ≠ A.id) {ops : List Op} {ts : TSt} (hI : RowInv ts) (hL : LegalOps A.d.mt ts ops)
    (hcol : ∀ o ∈ ops, o.col < A.d.nt) (hnd : (ops.map (opTt off T)).Nodup) (s : Store (M × Nat × Nat) α)
    (hz : ∀ o ∈ ops, ZeroT ib b off T s o) :
    qAll b mm na ib off A T (texec (ops.flatMap (facT K ib off A T)) s) ops ∈ unitaryGroup (Fin mm) α ∧
    ∀ r c, r < mm → c < na →
      lmul (qAll b mm na ib off A T (texec (ops.flatMap (facT K ib off A T)) s) ops)
        (hat b (runOps ts ops) (A.el (texec (ops.flatMap (facT K ib off A T)) s))) r c = hat b ts (A.el s) r c := by
  induction ops generalizing ts s with
  | nil =>
    unfold qAll
    simp only [List.flatMap_nil, texec_nil, List.map_nil, List.prod_nil, lmul_one]
    exact ⟨one_mem _, fun _ _ _ _ => rfl⟩
  | cons o ops ih =>
    rw [List.map_cons, List.nodup_cons] at hnd
    have hI1 := rowInv_run hI hL.1
    obtain ⟨hu, he⟩ := fac_step (off := off) hK hib hA hAm hAn hT hI hL.1 (hcol o (by simp)) s (hz o (by simp))
    rw [List.flatMap_cons, texec_append]
    set s1 := texec (facT K ib off A T o) s with hs1
    have hz1 : ∀ o' ∈ ops, ZeroT ib b off T s1 o' := by
      intro o' h' ht i j hi hj
      rw [← hz o' (by simp [h']) ht i j hi hj, hs1]
      refine (facT_writes (K := K) (ib := ib) (off := off) (A := A) (T := T) hI hL.1).frame s ?_
      rintro (e | ⟨r, c, e, _⟩)
      · exact hnd.1 (e ▸ List.mem_map_of_mem h')
      · exact hT (congrArg Prod.fst e)
    obtain ⟨hu', he'⟩ := ih hI1 hL.2 (fun o' h' => hcol o' (by simp [h'])) hnd.2 s1 hz1
    set s2 := texec (ops.flatMap (facT K ib off A T)) s1 with hs2
    have hQ : opQ b mm na ib off A T s2 o = opQ b mm na ib off A T s1 o := by
      have hfr := fun x i j => (fac_frame (K := K) (ib := ib) (off := off) (A := A) (T := T) hI1 hL.2).frame s1 (x := x) (i := i) (j := j)
      refine opq_stable hL.1 (fun i j hl => hfr _ _ _ ?_) (funext fun i => funext fun j => hfr _ _ _ ?_)
      · rintro (⟨o', _, e⟩ | h)
        · exact hT (congrArg Prod.fst e).symm
        · exact hl h
      · rintro (⟨o', h', e⟩ | ⟨r, c, e, _⟩)
        · exact hnd.1 (e ▸ List.mem_map_of_mem h')
        · exact hT (congrArg Prod.fst e)
    have hq : qAll b mm na ib off A T s2 (o :: ops) = opQ b mm na ib off A T s1 o * qAll b mm na ib off A T s2 ops := by
      unfold qAll
      rw [List.map_cons, List.prod_cons, hQ]
    rw [hq]
    refine ⟨mul_mem hu hu', fun r c hr hc => ?_⟩
    rw [← lmul_lmul _ _ _ _ hr, ← he r c hr hc]
    refine lmul_eq hr fun l hl => ?_
    exact he' l c hl hc

end

end Verif.Qr

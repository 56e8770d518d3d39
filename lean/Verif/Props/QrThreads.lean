/-
Properties: applying the unitary factor of a tree factorization with another number of threads (C35).
-/
import Verif.Props.Qr

namespace Verif.Props

open Verif.Layout Verif.Tile Verif.Tree Verif.Qr Verif.Fact Finset Matrix

universe u v

set_option linter.unusedSectionVars false

/-! ### The kernels on tiles of one element -/

section
variable {M : Type u} {𝕜 : Type v} [RCLike 𝕜]

theorem ltau_zero {a : 𝕜} (h : RCLike.im a = 0) : ltau a 0 = 0 := by
  unfold ltau; rw [if_pos ⟨rfl, h⟩]

theorem lbet_zero {a : 𝕜} (h : RCLike.im a = 0) : lbet a 0 = a := by
  unfold lbet; rw [if_pos ⟨rfl, h⟩]

theorem hqr_one (d : Nat) (sup : Sup) (s : HSt 𝕜) : hqr d 1 1 1 sup s = hblk d 1 1 1 sup 0 s := by
  unfold hqr
  rw [show List.range (ceilDiv 1 1) = [0] by decide]
  rfl

theorem hblk_one_T (d : Nat) (sup : Sup) (s : HSt 𝕜) :
    (hblk d 1 1 1 sup 0 s).T 0 0 = ltau (s.X 0 0) (xn2 d sup 0 s.X) := by
  show (hcols d sup (0 * 1) (0 * 1 + tdim 1 1 0) (tdim 1 1 0) s).T 0 0 = _
  rw [show tdim 1 1 0 = 1 by decide]
  exact hcol_T_diag

theorem hblk_one_X (d : Nat) (sup : Sup) (s : HSt 𝕜) (r : Nat) :
    (hblk d 1 1 1 sup 0 s).X r 0 = larfgCol d sup 0 s.X r 0 := by
  unfold hblk
  dsimp only
  rw [if_neg (by decide), show tdim 1 1 0 = 1 by decide]
  exact hcol_X_le le_rfl

theorem ge_one (A : Tl 𝕜) (h : RCLike.im (A 0 0) = 0) :
    (lkern : QrKern 𝕜).gA 1 1 1 A 0 0 = A 0 0 ∧ (lkern : QrKern 𝕜).gT 1 1 1 A 0 0 = 0 := by
  have e : xn2 1 geSup 0 (geX 1 1 A) = 0 := by
    unfold xn2
    rw [sum_range_one, if_neg (by decide)]
  have e0 : geX 1 1 A 0 0 = A 0 0 := if_pos (by decide)
  constructor
  · show (hqr 1 1 1 1 geSup ⟨geX 1 1 A, fun _ _ => 0⟩).X 0 0 = _
    rw [hqr_one, hblk_one_X]
    unfold larfgCol
    dsimp only
    rw [if_pos rfl, if_pos rfl, e, e0, lbet_zero h]
  · show (hqr 1 1 1 1 geSup ⟨geX 1 1 A, fun _ _ => 0⟩).T 0 0 = _
    rw [hqr_one, hblk_one_T]
    dsimp only
    rw [e, e0, ltau_zero h]

theorem ts_one (A1 A2 T : Tl 𝕜) (h : RCLike.im (A1 0 0) = 0) (h2 : A2 0 0 = 0) :
    (lkern : QrKern 𝕜).sA1 1 1 1 A1 A2 T 0 0 = A1 0 0 ∧ (lkern : QrKern 𝕜).sA2 1 1 1 A1 A2 T 0 0 = 0 ∧
    (lkern : QrKern 𝕜).sT 1 1 1 A1 A2 T 0 0 = 0 := by
  obtain ⟨p1, p2, p3⟩ := (fsS_rel (m := 1) (n := 1) (ib := 1) (by omega) (by omega) (by omega) (fun _ _ => 0) A1 A2 T).parts
  have e0 : tsX 1 1 A1 A2 0 0 = A1 0 0 := by unfold tsX; rw [if_pos (by decide), if_pos (by decide)]
  have e1 : tsX 1 1 A1 A2 1 0 = 0 := by unfold tsX; rw [if_neg (by decide), if_pos (by decide), h2]
  have e : xn2 (1 + 1) (tsSup 1) 0 (tsX 1 1 A1 A2) = 0 := by
    unfold xn2
    rw [sum_range_succ, sum_range_one, if_neg (by decide), if_pos (by decide), e1]
    simp
  refine ⟨?_, ?_, ?_⟩
  · refine (p1 0 0 (by omega) (by omega)).trans ?_
    show (hqr (1 + 1) 1 1 1 (tsSup 1) ⟨tsX 1 1 A1 A2, fun _ _ => 0⟩).X 0 0 = _
    rw [hqr_one, hblk_one_X]
    unfold larfgCol
    dsimp only
    rw [if_pos rfl, if_pos rfl, e, e0, lbet_zero h]
  · refine (p2 0 0 (show box 1 1 0 0 from by unfold box; omega)).trans ?_
    show (hqr (1 + 1) 1 1 1 (tsSup 1) ⟨tsX 1 1 A1 A2, fun _ _ => 0⟩).X 1 0 = _
    rw [hqr_one, hblk_one_X]
    unfold larfgCol
    dsimp only
    rw [if_pos rfl, if_neg (by decide), if_pos (by decide), e1, zero_mul]
  · refine (p3 0 0 (show tReg 1 1 0 0 from by unfold tReg; omega)).trans ?_
    show (hqr (1 + 1) 1 1 1 (tsSup 1) ⟨tsX 1 1 A1 A2, fun _ _ => 0⟩).T 0 0 = _
    rw [hqr_one, hblk_one_T]
    dsimp only
    rw [e, e0, ltau_zero h]

/-! ### The factorization of a matrix of 3 by 2 elements -/

/-- Contents of the tiles of one element: column 0 of `A` is `x`, column 1 is zero, `T` is `t`. -/
structure Cont (A T : TMat M) (x : Nat → 𝕜) (t : Nat → Nat → 𝕜) (s : Store (M × Nat × Nat) 𝕜) : Prop where
  c1 : ∀ r, r < 3 → s (A.at' r 1) 0 0 = 0
  c0 : ∀ r, r < 3 → s (A.at' r 0) 0 0 = x r
  ct : ∀ r c, s (T.at' r c) 0 0 = t r c

variable {A T : TMat M} {x : Nat → 𝕜} {t : Nat → Nat → 𝕜} {s : Store (M × Nat × Nat) 𝕜}

/-- Value of a tile. -/
theorem Cont.val (h : Cont A T x t s) {r : Nat} (hr : r < 3) {j : Nat} (hj : j < 2) :
    s (A.at' r j) 0 0 = if j = 1 then 0 else x r := by
  have : j = 0 ∨ j = 1 := by omega
  rcases this with rfl | rfl
  · rw [if_neg (by decide), h.c0 r hr]
  · rw [if_pos rfl, h.c1 r hr]

/-- A task that writes zero into column 1 only. -/
theorem cont_upd (hTA : T.id ≠ A.id) (h : Cont A T x t s) {s' : Store (M × Nat × Nat) 𝕜}
    (h1 : ∀ r, r < 3 → s' (A.at' r 1) 0 0 = 0) (h2 : ∀ y, (∀ r, y ≠ A.at' r 1) → s' y = s y) : Cont A T x t s' where
  c1 := h1
  c0 r hr := by rw [h2 _ (fun r' => at'_ne_col (by omega)), h.c0 r hr]
  ct r c := by rw [h2 _ (fun r' e => hTA (congrArg Prod.fst e)), h.ct]

theorem lmul_zero {d : Nat} {Q : Matrix (Fin d) (Fin d) 𝕜} {X : Nat → Nat → 𝕜} {i j : Nat} (hi : i < d)
    (h : ∀ l, l < d → X l j = 0) : lmul Q X i j = 0 := by
  unfold lmul
  rw [dif_pos hi]
  exact sum_eq_zero fun l _ => by rw [h l l.2, mul_zero]

/-- The shape of the matrix. -/
structure Sh (A T : TMat M) : Prop where
  ids : T.id ≠ A.id
  mv : ∀ k, k < 3 → A.d.mview k = 1
  nv : ∀ k, k < 2 → A.d.nview k = 1
  nt : A.d.nt = 2

theorem cont_st (hs : Sh A T) (h : Cont A T x t s) {j m k : Nat} (ho : j < 2 ∧ k < m ∧ m < 3) {tri : Bool} {kk : Nat}
    {V T' : M × Nat × Nat} :
    Cont A T x t ((stmqrL tri true (A.d.mview k) (A.d.nview 1) (A.d.mview m) kk 1 (A.at' k 1) (A.at' m 1) V T').run s) := by
  have hnd : ([A.at' k 1, A.at' m 1] : List _).Nodup := by
    rw [List.nodup_cons]
    exact ⟨fun e => by
      have := (TMat.at'_inj.mp (List.mem_singleton.mp e)).1
      omega, List.nodup_singleton _⟩
  have hz : ∀ l, l < 1 + 1 → vstack 1 (s (A.at' k 1)) (s (A.at' m 1)) l 0 = 0 := by
    intro l hl
    unfold vstack
    split_ifs
    · rw [show l = 0 by omega, h.c1 k (by omega)]
    · rw [show l - 1 = 0 by omega, h.c1 m (by omega)]
  rw [hs.mv _ (show k < 3 by omega), hs.mv _ (show m < 3 by omega), hs.nv 1 (by omega)]
  refine cont_upd hs.ids h (fun r hr3 => ?_) fun y hy => ?_
  · unfold stmqrL
    by_cases hr : r = k
    · subst hr
      refine (congrFun (congrFun (wop_at (ws := [⟨_, _, _⟩, ⟨_, _, _⟩]) hnd (w := ⟨A.at' r 1, box 1 1, _⟩) List.mem_cons_self s) 0) 0).trans ?_
      rw [paste_in (show box 1 1 0 0 from by unfold box; omega)]
      exact lmul_zero (i := 0) (by decide) hz
    · by_cases hr2 : r = m
      · subst hr2
        refine (congrFun (congrFun (wop_at (ws := [⟨_, _, _⟩, ⟨_, _, _⟩]) hnd (w := ⟨A.at' r 1, box 1 1, _⟩)
          (List.mem_cons_of_mem _ List.mem_cons_self) s) 0) 0).trans ?_
        rw [paste_in (show box 1 1 0 0 from by unfold box; omega)]
        exact lmul_zero (i := 1 + 0) (by decide) hz
      · rw [wop_ne, h.c1 r hr3]
        intro w hw
        simp only [List.mem_cons, List.not_mem_nil, or_false] at hw
        rcases hw with rfl | rfl
        · exact at'_ne_row hr
        · exact at'_ne_row hr2
  · unfold stmqrL
    rw [wop_ne]
    intro w hw
    simp only [List.mem_cons, List.not_mem_nil, or_false] at hw
    rcases hw with rfl | rfl
    · exact hy _
    · exact hy _

theorem cont_updL (hs : Sh A T) {off : Nat → Nat} {o : Op} (ho : o.inB 3 2) {cols : List Nat} (hc : ∀ n ∈ cols, n = 1)
    (h : Cont A T x t s) : Cont A T x t (texec (updL true 1 off A T A cols o) s) := by
  induction cols generalizing s with
  | nil => cases o <;> exact h
  | cons n cols ih =>
    have hn : n = 1 := hc n List.mem_cons_self
    subst hn
    have hc' : ∀ n ∈ cols, n = 1 := fun n hn => hc n (List.mem_cons_of_mem _ hn)
    have z1 : ∀ l, (fun l' => if l' = 1 then (0 : 𝕜) else 0) l = 0 := fun l => by dsimp only; split_ifs <;> rfl
    cases o with
    | ge j k =>
      obtain ⟨hj, hk⟩ : j < 2 ∧ k < 3 := ho
      show Cont A T x t (texec (updL true 1 off A T A cols (.ge j k)) (TTask.run (unmqrL ..) s))
      refine ih hc' (cont_upd hs.ids h (fun r hr3 => ?_) fun y hy => op2_ne _ (hy _))
      unfold unmqrL
      by_cases hr : r = k
      · subst hr
        rw [op2_self, hs.mv _ hk, hs.nv 1 (by omega), paste_in (show box 1 1 0 0 from by unfold box; omega)]
        refine lmul_zero (by omega) fun l hl => ?_
        rw [show l = 0 by omega, h.c1 r hr3]
      · rw [op2_ne _ (at'_ne_row hr), h.c1 r hr3]
    | ts j m k =>
      obtain ⟨hj, hk, hm⟩ : j < 2 ∧ k < m ∧ m < 3 := ho
      show Cont A T x t (texec (updL true 1 off A T A cols (.ts j m k)) (TTask.run (stmqrL ..) s))
      refine ih hc' (cont_st hs h ⟨hj, hk, hm⟩)
    | tt j m k =>
      obtain ⟨hj, hk, hm⟩ : j < 2 ∧ k < m ∧ m < 3 := ho
      show Cont A T x t (texec (updL true 1 off A T A cols (.tt j m k)) (TTask.run (stmqrL ..) s))
      refine ih hc' (cont_st hs h ⟨hj, hk, hm⟩)

/-- `T` after an operation. -/
def setT (t : Nat → Nat → 𝕜) (r c : Nat) (v : 𝕜) (r' c' : Nat) : 𝕜 := if r' = r ∧ c' = c then v else t r' c'

theorem fac_ge_one (hs : Sh A T) {off : Nat → Nat} {j k : Nat} (hj : j < 2) (hk : k < 3) (h : Cont A T x t s)
    (hx : j = 0 → RCLike.im (x k) = 0) :
    Cont A T x (setT t k j 0) (texec (facT lkern 1 off A T (.ge j k)) s) := by
  refine cont_updL hs (o := .ge j k) ⟨hj, hk⟩ (fun n hn => ?_) (s := TTask.run (geqrtT ..) s) ?_
  · have := mem_span.mp hn
    rw [hs.nt] at this
    have e : (Op.ge j k).col = j := rfl
    omega
  · rw [hs.mv k hk, hs.nv j hj]
    have hv := h.val (r := k) (by omega) hj
    have him : RCLike.im (s (A.at' k j) 0 0) = 0 := by
      rw [hv]; split_ifs
      · exact map_zero _
      · exact hx (by omega)
    obtain ⟨g1, g2⟩ := ge_one (s (A.at' k j)) him
    have hnd : ([A.at' k j, T.at' k j] : List _).Nodup := by
      rw [List.nodup_cons]
      exact ⟨fun e => TMat.at'_ne hs.ids (List.mem_singleton.mp e).symm, List.nodup_singleton _⟩
    have hA : ∀ r c, TTask.run (geqrtT lkern 1 1 1 (A.at' k j) (T.at' k j)) s (A.at' r c) 0 0 = s (A.at' r c) 0 0 := by
      intro r c
      by_cases e : A.at' r c = A.at' k j
      · rw [e]
        refine (congrFun (congrFun (wop_at (ws := [⟨_, _, _⟩, ⟨_, _, _⟩]) hnd (w := ⟨A.at' k j, box 1 1, _⟩)
          List.mem_cons_self s) 0) 0).trans ?_
        rw [paste_in (show box 1 1 0 0 from by unfold box; omega)]
        exact g1
      · unfold geqrtT
        rw [wop_ne]
        intro w hw
        simp only [List.mem_cons, List.not_mem_nil, or_false] at hw
        rcases hw with rfl | rfl
        · exact e
        · exact TMat.at'_ne hs.ids.symm
    refine ⟨fun r hr => by rw [hA, h.c1 r hr], fun r hr => by rw [hA, h.c0 r hr], fun r c => ?_⟩
    unfold setT
    by_cases e : r = k ∧ c = j
    · rw [if_pos e, e.1, e.2]
      refine (congrFun (congrFun (wop_at (ws := [⟨_, _, _⟩, ⟨_, _, _⟩]) hnd (w := ⟨T.at' k j, tReg 1 (min 1 1), _⟩)
          (List.mem_cons_of_mem _ List.mem_cons_self) s) 0) 0).trans ?_
      rw [paste_in (show tReg 1 (min 1 1) 0 0 from by unfold tReg; omega)]
      exact g2
    · rw [if_neg e, ← h.ct]
      unfold geqrtT
      rw [wop_ne]
      intro w hw
      simp only [List.mem_cons, List.not_mem_nil, or_false] at hw
      rcases hw with rfl | rfl
      · exact TMat.at'_ne hs.ids
      · exact fun e' => e (TMat.at'_inj.mp e')

theorem fac_ts_one (hs : Sh A T) {off : Nat → Nat} {j m k : Nat} (hj : j < 2) (hk : k < m) (hm : m < 3) (h : Cont A T x t s)
    (hx : j = 0 → RCLike.im (x k) = 0) (hx2 : j = 0 → x m = 0) :
    Cont A T x (setT t m (off j) 0) (texec (facT lkern 1 off A T (.ts j m k)) s) := by
  refine cont_updL hs (o := .ts j m k) ⟨hj, hk, hm⟩ (fun n hn => ?_) (s := TTask.run (tsqrtT ..) s) ?_
  · have := mem_span.mp hn
    rw [hs.nt] at this
    have e : (Op.ts j m k).col = j := rfl
    omega
  · rw [hs.mv m hm, hs.nv j hj]
    have hv := h.val (r := k) (by omega) hj
    have hv2 := h.val hm hj
    have him : RCLike.im (s (A.at' k j) 0 0) = 0 := by
      rw [hv]; split_ifs
      · exact map_zero _
      · exact hx (by omega)
    have hz : s (A.at' m j) 0 0 = 0 := by
      rw [hv2]; split_ifs
      · rfl
      · exact hx2 (by omega)
    obtain ⟨g1, g2, g3⟩ := ts_one (s (A.at' k j)) (s (A.at' m j)) (s (T.at' m (off j))) him hz
    have hnd : ([A.at' k j, A.at' m j, T.at' m (off j)] : List _).Nodup := by
      refine List.nodup_cons.mpr ⟨fun e => ?_, List.nodup_cons.mpr ⟨fun e => ?_, List.nodup_singleton _⟩⟩
      · simp only [List.mem_cons, List.not_mem_nil, or_false] at e
        rcases e with e | e
        · have := (TMat.at'_inj.mp e).1
          omega
        · exact TMat.at'_ne hs.ids e.symm
      · exact TMat.at'_ne hs.ids (List.mem_singleton.mp e).symm
    have hA : ∀ r c, TTask.run (tsqrtT lkern 1 1 1 (A.at' k j) (A.at' m j) (T.at' m (off j))) s (A.at' r c) 0 0 =
        s (A.at' r c) 0 0 := by
      intro r c
      by_cases e : A.at' r c = A.at' k j
      · rw [e]
        refine (congrFun (congrFun (wop_at (ws := [⟨_, _, _⟩, ⟨_, _, _⟩, ⟨_, _, _⟩]) hnd (w := ⟨A.at' k j, upTo 1, _⟩)
          List.mem_cons_self s) 0) 0).trans ?_
        rw [paste_in (show upTo 1 0 0 from by unfold upTo; omega)]
        exact g1
      by_cases e2 : A.at' r c = A.at' m j
      · rw [e2]
        refine (congrFun (congrFun (wop_at (ws := [⟨_, _, _⟩, ⟨_, _, _⟩, ⟨_, _, _⟩]) hnd (w := ⟨A.at' m j, box 1 1, _⟩)
          (List.mem_cons_of_mem _ List.mem_cons_self) s) 0) 0).trans ?_
        rw [paste_in (show box 1 1 0 0 from by unfold box; omega), hz]
        exact g2
      · unfold tsqrtT
        rw [wop_ne]
        intro w hw
        simp only [List.mem_cons, List.not_mem_nil, or_false] at hw
        rcases hw with rfl | rfl | rfl
        · exact e
        · exact e2
        · exact TMat.at'_ne hs.ids.symm
    refine ⟨fun r hr => by rw [hA, h.c1 r hr], fun r hr => by rw [hA, h.c0 r hr], fun r c => ?_⟩
    unfold setT
    by_cases e : r = m ∧ c = off j
    · rw [if_pos e, e.1, e.2]
      refine (congrFun (congrFun (wop_at (ws := [⟨_, _, _⟩, ⟨_, _, _⟩, ⟨_, _, _⟩]) hnd (w := ⟨T.at' m (off j), tReg 1 1, _⟩)
          (List.mem_cons_of_mem _ (List.mem_cons_of_mem _ List.mem_cons_self)) s) 0) 0).trans ?_
      rw [paste_in (show tReg 1 1 0 0 from by unfold tReg; omega)]
      exact g3
    · rw [if_neg e, ← h.ct]
      unfold tsqrtT
      rw [wop_ne]
      intro w hw
      simp only [List.mem_cons, List.not_mem_nil, or_false] at hw
      rcases hw with rfl | rfl | rfl
      · exact TMat.at'_ne hs.ids
      · exact TMat.at'_ne hs.ids
      · exact fun e' => e (TMat.at'_inj.mp e')

/-- A `tt` operation on column 0 changes column 0 and one element of `T`. -/
theorem fac_tt_one (hs : Sh A T) {off : Nat → Nat} {m k : Nat} (hk : k < m) (hm : m < 3) (h : Cont A T x t s) :
    ∃ x' v, Cont A T x' (setT t m (off 0) v) (texec (facT lkern 1 off A T (.tt 0 m k)) s) := by
  let s1 := TTask.run (ttqrtT lkern (A.d.mview m) (A.d.nview 0) 1 (A.at' k 0) (A.at' m 0) (T.at' m (off 0))) s
  refine ⟨fun r => s1 (A.at' r 0) 0 0, s1 (T.at' m (off 0)) 0 0, ?_⟩
  refine cont_updL hs (o := .tt 0 m k) ⟨by omega, hk, hm⟩ (fun n hn => ?_) (s := s1) ?_
  · have := mem_span.mp hn
    rw [hs.nt] at this
    have e : (Op.tt 0 m k).col = 0 := rfl
    omega
  · refine ⟨fun r hr => ?_, fun r _ => rfl, fun r c => ?_⟩
    · rw [← h.c1 r hr]
      show TTask.run (ttqrtT ..) s _ 0 0 = _
      unfold ttqrtT
      rw [wop_ne]
      intro w hw
      simp only [List.mem_cons, List.not_mem_nil, or_false] at hw
      rcases hw with rfl | rfl | rfl
      · exact at'_ne_col (by decide)
      · exact at'_ne_col (by decide)
      · exact TMat.at'_ne hs.ids.symm
    · unfold setT
      by_cases e : r = m ∧ c = off 0
      · rw [if_pos e, e.1, e.2]
      · rw [if_neg e, ← h.ct]
        show TTask.run (ttqrtT ..) s _ 0 0 = _
        unfold ttqrtT
        rw [wop_ne]
        intro w hw
        simp only [List.mem_cons, List.not_mem_nil, or_false] at hw
        rcases hw with rfl | rfl | rfl
        · exact TMat.at'_ne hs.ids
        · exact TMat.at'_ne hs.ids
        · exact fun e' => e (TMat.at'_inj.mp e')

/-- The operations for three by two tiles, one thread. -/
theorem list_one : treeList 3 2 1 = [.ge 0 2, .ge 0 0, .ts 0 1 0, .tt 0 2 0, .ge 1 1, .ts 1 2 1] := by rfl

/-- The operations for three by two tiles, two threads. -/
theorem list_two : treeList 3 2 2 = [.ge 0 2, .ge 0 1, .ge 0 0, .tt 0 2 1, .ge 1 2, .tt 0 1 0, .ge 1 1, .tt 1 2 1] := by rfl

/-- The factorization of the matrix with a single one in row 2 with one thread leaves zeros in all elements of `T`
but one. -/
theorem fac_list_one (hs : Sh A T) {off : Nat → Nat} (ho : ∀ j, off j = j + 2) (hx : x 0 = 0 ∧ x 1 = 0 ∧ x 2 = 1)
    (h : Cont A T x (fun _ _ => 0) s) :
    ∃ x' v, Cont A T x' (setT (fun _ _ => 0) 2 2 v) (texec ((treeList 3 2 1).flatMap (facT lkern 1 off A T)) s) := by
  rw [list_one]
  simp only [List.flatMap_cons, List.flatMap_nil, List.append_nil, texec_append]
  have h1 := fac_ge_one hs (off := off) (j := 0) (k := 2) (by omega) (by omega) h (fun _ => by rw [hx.2.2]; exact RCLike.one_im)
  have h2 := fac_ge_one hs (off := off) (j := 0) (k := 0) (by omega) (by omega) h1 (fun _ => by rw [hx.1]; exact map_zero _)
  have h3 := fac_ts_one hs (off := off) (j := 0) (m := 1) (k := 0) (by omega) (by omega) (by omega) h2
    (fun _ => by rw [hx.1]; exact map_zero _) (fun _ => hx.2.1)
  obtain ⟨x', v, h4⟩ := fac_tt_one hs (off := off) (m := 2) (k := 0) (by omega) (by omega) h3
  have h5 := fac_ge_one hs (off := off) (j := 1) (k := 1) (by omega) (by omega) h4 (fun e => by omega)
  have h6 := fac_ts_one hs (off := off) (j := 1) (m := 2) (k := 1) (by omega) (by omega) (by omega) h5
    (fun e => by omega) (fun e => by omega)
  refine ⟨x', v, ?_⟩
  convert h6 using 1
  funext r c
  unfold setT
  rw [ho, ho]
  split_ifs <;> first | rfl | omega

/-! ### The application -/

/-- Memory and tile store of a factorization. -/
theorem geqrf_state {α : Type v} [CommRing α] [StarRing α] {K : QrKern α} (hK : QrSpec K) {hm : HMode} (hok : HMode.ok hm)
    {ib nb m n lda : Nat} (hnb : 0 < nb) (hib : 0 < ib) (h0 : min m n ≠ 0) (hlda : m ≤ lda) {mem mem' : Buf × Nat → α}
    (h : Exec (qrEnv hm ib nb m n (m, n) lda (0, 0) 0) (zgeqrf K hm ib nb m n) mem mem') :
    ∃ s : Store (Buf × Nat × Nat) α,
      (∀ r c, r < m → c < n → (tVw nb (qrDims (m, n) (0, 0)) (qrDims (m, n) (0, 0)) 0).el s r c = mem (.usr 0, r + c * lda)) ∧
      (∀ t i j, t.1 = .usr 1 → s t i j = mem (eloc (qrEnv hm ib nb m n (m, n) lda (0, 0) 0) t i j)) ∧
      (∀ t i j, t.1 = .usr 1 → evalid (qrEnv hm ib nb m n (m, n) lda (0, 0) 0) t i j →
        mem' (eloc (qrEnv hm ib nb m n (m, n) lda (0, 0) 0) t i j) =
          texec ((hOps hm (ceilDiv m nb) (ceilDiv n nb)).flatMap (facT K ib (hOff hm (qrT hm ib nb m n))
            (tVw nb (qrDims (m, n) (0, 0)) (qrDims (m, n) (0, 0)) 0) (qrT hm ib nb m n))) s t i j) ∧
      (∀ r c, r < m → c < n → mem' (.usr 0, r + c * lda) = (tVw nb (qrDims (m, n) (0, 0)) (qrDims (m, n) (0, 0)) 0).el
          (texec ((hOps hm (ceilDiv m nb) (ceilDiv n nb)).flatMap (facT K ib (hOff hm (qrT hm ib nb m n))
            (tVw nb (qrDims (m, n) (0, 0)) (qrDims (m, n) (0, 0)) 0) (qrT hm ib nb m n))) s) r c) := by
  unfold zgeqrf at h
  rw [if_neg h0] at h
  set dims := qrDims (m, n) (0, 0) with hdims
  have d0 : dims 0 = (m, n) := rfl
  have hmt := ceilDiv_pos (m := m) hnb (by omega)
  have hnt := ceilDiv_pos (m := n) hnb (by omega)
  have hAl : (tVw nb dims dims 0).Al nb := al_tVw hnb 0
  have hops : hOps hm (tVw nb dims dims 0).d.mt (tVw nb dims dims 0).d.nt = hOps hm (ceilDiv m nb) (ceilDiv n nb) := by
    rw [al_mt hnb, al_nt hnb, d0]
  have ho : OpsOK (tVw nb dims dims 0).d.mt (tVw nb dims dims 0).d.nt (hOps hm (ceilDiv m nb) (ceilDiv n nb)) := by
    rw [al_mt hnb, al_nt hnb]
    exact hOps_ok hok hmt hnt
  have hTv := qrT_valid (hm := hm) (ib := ib) (m := m) (n := n) (a := (m, n)) (c := (0, 0)) (lda := lda) (ldc := 0)
    hnb (ops_inB (hOps_ok hok hmt hnt))
  have vA : TilesV (evalid (qrEnv hm ib nb m n (m, n) lda (0, 0) 0)) nb (tVw nb dims dims 0) :=
    tiles_vw hnb ⟨le_rfl, le_rfl⟩
  have hio : ∀ k, k ∈ [0] → k ≠ 1 ∧ (dims k).1 ≤ (dims k).1 ∧ (dims k).2 ≤ (dims k).2 := fun k hk => by
    simp only [List.mem_cons, List.not_mem_nil, or_false] at hk
    exact ⟨by omega, le_rfl, le_rfl⟩
  rw [ompZgeqrf_eq hAl h0, hops, show (qrT hm ib nb m n).d.mb = ib from rfl] at h
  have hTA : (qrT hm ib nb m n).id ≠ (tVw nb dims dims 0).id := fun e => by cases e
  obtain ⟨s, e1, e2, e3, e4, e5, e6⟩ := drvT_correct hnb hib (qrLd_ok hlda le_rfl) (by decide) (by decide) hio hio
    (fac_good hK hAl hTA vA (ops_inB ho) hTv)
    (fac_writes.mono fun x hx => hx.elim (fun h => Or.inl ⟨0, h⟩) Or.inr) h
  exact ⟨s, fun r c hr hc => e1 0 (by simp) r c hr hc, e2, e4, fun r c hr hc => e3 0 (by simp) r c hr hc⟩

/-- Every memory holds the reflectors of some matrix. -/
theorem holds_any {α : Type v} [CommRing α] [StarRing α] (hm : HMode) {ib nb m n lda : Nat} (hnb : 0 < nb) (mem1 : Buf × Nat → α) :
    Holds hm ib nb m n lda mem1 (qAll nb m n ib (hOff hm (qrT hm ib nb m n)) (uVw nb (qrDims (m, n) (0, 0)) (qrDims (m, n) (0, 0)) 0)
      (qrT hm ib nb m n) (view (eloc (qrEnv hm ib nb m n (m, n) lda (0, 0) 0)) mem1) (hOps hm (ceilDiv m nb) (ceilDiv n nb))) := by
  refine ⟨_, _, al_uVw hnb 0, rfl, fun r c _ _ => uVw_view hnb (by decide) mem1 r c, fun o _ i j _ _ => ?_⟩
  exact congrArg mem1 (eloc_T rfl i j)

/-- An operation whose element of `T` is zero does nothing. -/
theorem opQ_T0 {mm na : Nat} {off : Nat → Nat} {o : Op} (hk : opK 1 mm na o = 1)
    (h : s (T.at' o.row (opTc off o)) 0 0 = 0) : opQ 1 mm na 1 off A T s o = 1 := by
  unfold opQ opq
  rw [hk]
  have e : wy (opDim 1 mm o) 1 1 (opV 1 mm (s (A.at' o.row o.col)) o) (s (T.at' o.row (opTc off o))) = 1 := by
    unfold wy
    rw [show List.range (ceilDiv 1 1) = [0] by decide, List.map_singleton, List.prod_singleton]
    unfold wyBlk
    dsimp only
    have ez : (Matrix.of fun (l l' : Fin (tdim 1 1 0)) => if l ≤ l' then s (T.at' o.row (opTc off o)) l (0 * 1 + l') else 0) = 0 := by
      ext l l'
      have h1 : (l : Nat) = 0 := by have := l.2; unfold tdim at this; omega
      have h2 : (l' : Nat) = 0 := by have := l'.2; unfold tdim at this; omega
      rw [Matrix.of_apply, h1, h2, h, Matrix.zero_apply, ite_self]
    rw [ez, Matrix.mul_zero, Matrix.zero_mul, sub_zero]
  rw [e, gemb_one]

/-- **C35** fails: after the factorization of a 3 by 2 matrix (tiles of one element) with one thread, applying `Q` with
two threads to `R` does not give the matrix back. -/
theorem C35_refuted : ∃ mem mem' mem1 mem2 : Buf × Nat → 𝕜, TClean (some 1) mem ∧
    Exec (qrEnv (some 1) 1 1 3 2 (3, 2) 3 (0, 0) 0) (zgeqrf lkern (some 1) 1 1 3 2) mem mem' ∧
    (∀ x, mem1 (.usr 0, x) = mem' (.usr 0, x)) ∧ (∀ x, mem1 (.usr 1, x) = mem' (.usr 1, x)) ∧
    uArr mem1 2 3 3 2 = uArrU mem' 0 3 3 2 ∧
    Exec (qrEnv (some 2) 1 1 3 2 (3, 2) 3 (3, 2) 3) (zunmqr (some 2) 1 1 3 2 true false 3 2 2) mem1 mem2 ∧
    uArr mem2 2 3 3 2 ≠ uArr mem 0 3 3 2 := by
  have hok1 : HMode.ok (some 1) := by intro c h; cases h; omega
  have hok2 : HMode.ok (some 2) := by intro c h; cases h; omega
  let mem : Buf × Nat → 𝕜 := fun p => if p = (.usr 0, 2) then 1 else 0
  obtain ⟨mem', hx⟩ := geqrf_exists (lkern_spec (𝕜 := 𝕜)) (n := 2) (lda := 3) hok1 (nb := 1) (m := 3) (ib := 1) (by omega)
    (by omega) (by omega) mem
  let mem1 : Buf × Nat → 𝕜 := fun p => if p.1 = .usr 2 then (if p.2 % 3 ≤ p.2 / 3 then mem' (.usr 0, p.2) else 0) else mem' p
  have m10 : ∀ x, mem1 (.usr 0, x) = mem' (.usr 0, x) := fun x => if_neg fun e => by cases e
  have m11 : ∀ x, mem1 (.usr 1, x) = mem' (.usr 1, x) := fun x => if_neg fun e => by cases e
  have m12 : ∀ r c, r < 3 → mem1 (.usr 2, r + c * 3) = if r ≤ c then mem' (.usr 0, r + c * 3) else 0 := by
    intro r c hr
    refine (if_pos rfl).trans ?_
    dsimp only
    rw [show (r + c * 3) % 3 = r by omega, show (r + c * 3) / 3 = c by omega]
  obtain ⟨mem2, hx2⟩ := unmqr_exists (n := 2) (lda := 3) hok2 (nb := 1) (m := 3) (ib := 1) (by omega)
    (by omega) (by omega) (by omega) (l := true) (t := false) (cm := 3) (cn := 2) (ldc := 3) (by omega) rfl mem1
  refine ⟨mem, mem', mem1, mem2, Or.inr fun x => if_neg (fun e => by cases (Prod.mk.inj e).1), hx, m10, m11, Matrix.ext fun r c => m12 r c r.2, hx2, ?_⟩
  -- `T` in memory
  obtain ⟨s, g1, g2, g3, -⟩ := geqrf_state lkern_spec hok1 (by omega) (by omega) (by omega) (by omega) hx
  set A := tVw 1 (qrDims (3, 2) (0, 0)) (qrDims (3, 2) (0, 0)) 0 with hA
  have hAl : A.Al 1 := al_tVw (by omega) 0
  have hs : Sh A (qrT (some 1) 1 1 3 2) := by
    refine ⟨fun e => (by cases e), fun k hk => ?_, fun k hk => ?_, rfl⟩
    · rw [hAl.mview (by rw [al_mt (by omega)]; exact hk)]
      show tdim 3 1 k = 1
      unfold tdim; omega
    · rw [hAl.nview (by rw [al_nt (by omega)]; exact hk)]
      show tdim 2 1 k = 1
      unfold tdim; omega
  have hel : ∀ r c, A.el s r c = s (A.at' r c) 0 0 := by
    intro r c
    show s (A.at' (r / 1) (c / 1)) (r % 1) (c % 1) = _
    rw [Nat.div_one, Nat.div_one, Nat.mod_one, Nat.mod_one]
  have hmem0 : ∀ r c, r < 3 → c < 2 → s (A.at' r c) 0 0 = if r + c * 3 = 2 then 1 else 0 := by
    intro r c hr hc
    rw [← hel, g1 r c hr hc]
    show (if (Buf.usr 0, r + c * 3) = (Buf.usr 0, 2) then (1 : 𝕜) else 0) = _
    congr 1
    simp
  obtain ⟨x', v, hc⟩ := fac_list_one (A := A) (T := qrT (some 1) 1 1 3 2) (s := s) (x := fun r => if r = 2 then 1 else 0) hs
    (off := hOff (some 1) (qrT (some 1) 1 1 3 2)) (fun j => rfl) ⟨rfl, rfl, rfl⟩
    ⟨fun r hr => by rw [hmem0 r 1 hr (by omega), if_neg (by omega)], fun r hr => by rw [hmem0 r 0 hr (by omega)]; simp,
      fun r c => by
        rw [g2 _ _ _ rfl]
        refine if_neg fun e => ?_
        have := (Prod.mk.inj e).1
        cases this⟩
  have hT : ∀ o ∈ treeList 3 2 2, mem1 (eloc (qrEnv (some 2) 1 1 3 2 (3, 2) 3 (0, 0) 0)
      ((qrT (some 2) 1 1 3 2).at' o.row (opTc (hOff (some 2) (qrT (some 2) 1 1 3 2)) o)) 0 0) =
      setT (fun _ _ => 0) 2 2 v o.row (opTc (fun j => j + 2) o) := by
    intro o ho
    have hv := qrT_valid (hm := some 2) (ib := 1) (nb := 1) (m := 3) (n := 2) (by omega) (a := (3, 2)) (c := (0, 0)) (lda := 3)
      (ldc := 0) (ops_inB (treeList_ok (mt := 3) (nt := 2) (conc := 2) (by omega) (by omega) (by omega))) o ho 0 0 (by omega) (by omega)
    rw [← hc.ct]
    refine (m11 _).trans ?_
    exact g3 _ 0 0 rfl hv
  -- `Q` with two threads
  have hh := holds_any (some 2) (ib := 1) (nb := 1) (m := 3) (n := 2) (lda := 3) (by omega) mem1
  obtain ⟨e1, -⟩ := unmqr_holds hok2 (by omega) (by omega) (by omega) (by omega) hh (fun _ _ _ _ => rfl) (fun _ => rfl)
    (by omega) (l := true) rfl hx2
  have e20 := e1 2 0 (by omega) (by omega)
  rw [if_pos rfl] at e20
  intro hc
  have hne : mem2 (.usr 2, 2 + 0 * 3) = mem (.usr 0, 2 + 0 * 3) := congrFun (congrFun hc (2 : Fin 3)) (0 : Fin 2)
  rw [show mem (.usr 0, 2 + 0 * 3) = 1 from if_pos rfl, e20] at hne
  have hl : hOps (some 2) (ceilDiv 3 1) (ceilDiv 2 1) =
    [.ge 0 2, .ge 0 1, .ge 0 0, .tt 0 2 1, .ge 1 2, .tt 0 1 0, .ge 1 1, .tt 1 2 1] := list_two
  rw [list_two] at hT
  have hT' : ∀ o ∈ [Op.ge 0 2, .ge 0 1, .ge 0 0, .tt 0 2 1, .ge 1 2, .tt 0 1 0, .ge 1 1, .tt 1 2 1], o ≠ .tt 0 2 1 →
      opQ 1 3 2 1 (hOff (some 2) (qrT (some 2) 1 1 3 2)) (uVw 1 (qrDims (3, 2) (0, 0)) (qrDims (3, 2) (0, 0)) 0)
        (qrT (some 2) 1 1 3 2) (view (eloc (qrEnv (some 2) 1 1 3 2 (3, 2) 3 (0, 0) 0)) mem1) o = 1 := by
    intro o ho hne
    refine opQ_T0 ?_ ((hT o ho).trans ?_)
    · revert hne
      revert o
      decide
    · refine if_neg ?_
      revert hne
      clear hT
      revert o
      decide
  unfold qAll at hne
  rw [hl] at hne
  simp only [List.map_cons, List.map_nil, List.prod_cons, List.prod_nil] at hne
  rw [hT' (.ge 0 2) (by decide) (by decide), hT' (.ge 0 1) (by decide) (by decide), hT' (.ge 0 0) (by decide) (by decide),
    hT' (.ge 1 2) (by decide) (by decide), hT' (.tt 0 1 0) (by decide) (by decide), hT' (.ge 1 1) (by decide) (by decide),
    hT' (.tt 1 2 1) (by decide) (by decide)] at hne
  simp only [mul_one, one_mul] at hne
  have hin := lmul_gemb_in (m := 3) (rowMap (b := 1) (mm := 3) (mt := 3) (nt := 2) (o := .tt 0 2 1) ⟨by omega, by omega, by omega⟩)
    (opq 1 3 2 1 (hOff (some 2) (qrT (some 2) 1 1 3 2)) (uVw 1 (qrDims (3, 2) (0, 0)) (qrDims (3, 2) (0, 0)) 0)
        (qrT (some 2) 1 1 3 2) (view (eloc (qrEnv (some 2) 1 1 3 2 (3, 2) 3 (0, 0) 0)) mem1) (.tt 0 2 1))
    (fun i j => mem1 (.usr 2, i + j * 3)) (i := 1) (by decide) 0
  have hz := lmul_zero (Q := opq 1 3 2 1 (hOff (some 2) (qrT (some 2) 1 1 3 2)) (uVw 1 (qrDims (3, 2) (0, 0)) (qrDims (3, 2) (0, 0)) 0)
        (qrT (some 2) 1 1 3 2) (view (eloc (qrEnv (some 2) 1 1 3 2 (3, 2) 3 (0, 0) 0)) mem1) (.tt 0 2 1))
    (X := fun l j => mem1 (.usr 2, opRho 1 3 (.tt 0 2 1) l + j * 3)) (i := 1) (j := 0) (by decide) (fun l hl => by
      have hl2 : l < 2 := hl
      have : l = 0 ∨ l = 1 := by omega
      rcases this with rfl | rfl
      · exact (m12 1 0 (by omega)).trans (if_neg (by omega))
      · exact (m12 2 0 (by omega)).trans (if_neg (by omega)))
  refine one_ne_zero (α := 𝕜) (hne.symm.trans (Eq.trans ?_ (hin.trans hz)))
  rfl

/-- The list depends on the number of threads only through the block size. -/
theorem treeList_congr {mt nt c1 c2 : Nat} (h : blockSize mt (min mt nt) c1 = blockSize mt (min mt nt) c2) :
    treeList mt nt c1 = treeList mt nt c2 := by
  unfold treeList treeOps
  rw [h]

/-- **C35**, part: the number of threads may change if the block size of the tree (control/tree.c:559-561) stays the
same; then the later calls with `c2` threads use the `Q` of the factorization with `c1` threads.

Missing: block sizes that differ; there it is false, see `C35_refuted`; a `T` that is not zero before the factorization, see
`C61_geqrf_stale`. -/
theorem C35_partial {c1 c2 ib nb m n lda : Nat} (hc2 : 0 < c2) (hnb : 0 < nb) (hib : 0 < ib) (hlda : m ≤ lda)
    (hbs : blockSize (ceilDiv m nb) (min (ceilDiv m nb) (ceilDiv n nb)) c1 =
      blockSize (ceilDiv m nb) (min (ceilDiv m nb) (ceilDiv n nb)) c2) {mem mem' : Buf × Nat → 𝕜}
    (hc : TClean (some c1) mem) (h : Exec (qrEnv (some c1) ib nb m n (m, n) lda (0, 0) 0) (zgeqrf lkern (some c1) ib nb m n) mem mem') :
    ∃ Q : Matrix (Fin m) (Fin m) 𝕜, Q ∈ unitaryGroup (Fin m) 𝕜 ∧ Q * uArrU mem' 0 lda m n = uArr mem 0 lda m n ∧
      AppliesQ (some c2) ib nb m n lda mem' Q := by
  have hok2 : HMode.ok (some c2) := by intro c h; cases h; exact hc2
  refine C34_apply_partial hok2 hnb hib hlda (Or.inr (hc.resolve_left fun e => by cases e)) (?_ : Exec (qrEnv (some c2) ib nb m n (m, n) lda (0, 0) 0) _ mem mem')
  have e : zgeqrf (lkern : QrKern 𝕜) (some c2) ib nb m n = zgeqrf lkern (some c1) ib nb m n := by
    unfold zgeqrf ompZgeqrf
    by_cases h0 : min m n = 0
    · rw [if_pos h0, if_pos h0]
    · rw [if_neg h0, if_neg h0]
      dsimp only
      rw [al_mt hnb, al_nt hnb]
      rw [show (qrDims (m, n) (0, 0) 0) = (m, n) from rfl, treeList_congr hbs]
      rfl
  rw [e]
  exact h

/-- A matrix with one tile column: all numbers of threads give the same list. -/
example (mt c1 c2 : Nat) : blockSize mt (min mt 1) c1 = blockSize mt (min mt 1) c2 := by
  have : min mt 1 = 0 ∨ min mt 1 = 1 := by omega
  unfold blockSize
  rcases this with h | h <;> rw [h] <;> simp

/-- With enough threads the list does not change either. -/
example : blockSize 10 (min 10 3) 16 = blockSize 10 (min 10 3) 64 := by decide

end

end Verif.Props

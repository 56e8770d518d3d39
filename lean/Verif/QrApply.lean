/-
Application of the transformations of a list of operations.
-/
import Verif.Qr

namespace Verif.Qr

open Verif.Layout Verif.Tile Verif.Tree Finset Matrix

set_option linter.unusedSectionVars false

universe u v

section
variable {α : Type v} [CommRing α] [StarRing α] {m n d : Nat} {ρ : Nat → Nat}

theorem mul_mat (G : Matrix (Fin m) (Fin m) α) (X : Nat → Nat → α) (r : Fin m) (c : Fin n) :
    (G * mat m n X) r c = lmul G X r c := by
  unfold lmul
  rw [dif_pos r.2, mul_apply]
  rfl

theorem mat_mul (G : Matrix (Fin m) (Fin m) α) (X : Nat → Nat → α) (r : Fin n) (c : Fin m) :
    (mat n m X * G) r c = rmul X G r c := by
  unfold rmul
  rw [dif_pos c.2, mul_apply]
  rfl

theorem lmul_eq {Q : Matrix (Fin d) (Fin d) α} {X Y : Nat → Nat → α} {i j c : Nat} (hi : i < d)
    (h : ∀ l, l < d → X l j = Y l c) : lmul Q X i j = lmul Q Y i c := by
  unfold lmul
  rw [dif_pos hi, dif_pos hi]
  exact sum_congr rfl fun l _ => by rw [h l l.2]

theorem rmul_eq {Q : Matrix (Fin d) (Fin d) α} {X Y : Nat → Nat → α} {i j r : Nat} (hj : j < d)
    (h : ∀ l, l < d → X i l = Y r l) : rmul X Q i j = rmul Y Q r j := by
  unfold rmul
  rw [dif_pos hj, dif_pos hj]
  exact sum_congr rfl fun l _ => by rw [h l l.2]

theorem lmul_lmul (G H : Matrix (Fin m) (Fin m) α) (X : Nat → Nat → α) {r : Nat} (c : Nat) (hr : r < m) :
    lmul G (lmul H X) r c = lmul (G * H) X r c := by
  have h1 := mul_mat (n := c + 1) (G * H) X ⟨r, hr⟩ ⟨c, by omega⟩
  have h2 := mul_mat (n := c + 1) G (lmul H X) ⟨r, hr⟩ ⟨c, by omega⟩
  rw [← h1, ← h2, Matrix.mul_assoc]
  have e : H * mat m (c + 1) X = mat m (c + 1) (lmul H X) := by
    ext i j
    exact mul_mat H X i j
  rw [e]

theorem rmul_rmul (G H : Matrix (Fin m) (Fin m) α) (X : Nat → Nat → α) {c : Nat} (r : Nat) (hc : c < m) :
    rmul (rmul X G) H r c = rmul X (G * H) r c := by
  have h1 := mat_mul (n := r + 1) (G * H) X ⟨r, by omega⟩ ⟨c, hc⟩
  have h2 := mat_mul (n := r + 1) H (rmul X G) ⟨r, by omega⟩ ⟨c, hc⟩
  rw [← h1, ← h2, ← Matrix.mul_assoc]
  have e : mat (r + 1) m X * G = mat (r + 1) m (rmul X G) := by
    ext i j
    exact mat_mul G X i j
  rw [e]

theorem lmul_one (X : Nat → Nat → α) (r c : Nat) : lmul (1 : Matrix (Fin m) (Fin m) α) X r c = X r c := by
  unfold lmul
  split
  · rename_i h
    simp only [one_apply, ite_mul, one_mul, zero_mul]
    rw [sum_ite_eq univ (⟨r, h⟩ : Fin m), if_pos (mem_univ _)]
  · rfl

theorem rmul_one (X : Nat → Nat → α) (r c : Nat) : rmul X (1 : Matrix (Fin m) (Fin m) α) r c = X r c := by
  unfold rmul
  split
  · rename_i h
    simp only [one_apply, mul_ite, mul_one, mul_zero]
    rw [sum_ite_eq' univ (⟨c, h⟩ : Fin m), if_pos (mem_univ _)]
  · rfl

theorem lmul_gemb_in (h : RowMap m d ρ) (q : Matrix (Fin d) (Fin d) α) (X : Nat → Nat → α) {i : Nat} (hi : i < d)
    (c : Nat) : lmul (gemb m ρ q) X (ρ i) c = lmul q (fun l => X (ρ l)) i c := by
  have h1 := mul_mat (n := c + 1) (gemb m ρ q) X ⟨ρ i, h.lt i hi⟩ ⟨c, by omega⟩
  rw [← h1, gemb_in h q X ⟨i, hi⟩ _ rfl]
  unfold lmul
  rw [dif_pos hi]

theorem lmul_gemb_out (q : Matrix (Fin d) (Fin d) α) (X : Nat → Nat → α) {r : Nat}
    (hr : ∀ l, l < d → ρ l ≠ r) (c : Nat) : lmul (gemb m ρ q) X r c = X r c := by
  by_cases h : r < m
  · have h1 := mul_mat (n := c + 1) (gemb m ρ q) X ⟨r, h⟩ ⟨c, by omega⟩
    rw [← h1, gemb_out q _ _ hr]
    rfl
  · unfold lmul; rw [dif_neg h]

theorem rmul_gemb_in (h : RowMap m d ρ) (q : Matrix (Fin d) (Fin d) α) (X : Nat → Nat → α) {i : Nat} (hi : i < d)
    (r : Nat) : rmul X (gemb m ρ q) r (ρ i) = rmul (fun r l => X r (ρ l)) q r i := by
  have h1 := mat_mul (n := r + 1) (gemb m ρ q) X ⟨r, by omega⟩ ⟨ρ i, h.lt i hi⟩
  rw [← h1, gemb_inR h q X ⟨i, hi⟩ _ rfl]
  unfold rmul
  rw [dif_pos hi]

theorem rmul_gemb_out (q : Matrix (Fin d) (Fin d) α) (X : Nat → Nat → α) {c : Nat}
    (hc : ∀ l, l < d → ρ l ≠ c) (r : Nat) : rmul X (gemb m ρ q) r c = X r c := by
  by_cases h : c < m
  · have h1 := mat_mul (n := r + 1) (gemb m ρ q) X ⟨r, by omega⟩ ⟨c, h⟩
    rw [← h1, gemb_outR q _ _ hc]
    rfl
  · unfold rmul; rw [dif_neg h]

end

/-! ### Loops over independent tile columns or rows -/

section
variable {M : Type u} {α : Type v}

theorem fold_upd {f : Nat → TTask M α} {E : Store M α → Nat → Nat → α} {ix : Nat → Nat → Nat}
    {D : Nat → Nat → Prop} {act : (Nat → Nat → α) → Nat → Nat → α}
    (hact : ∀ X Y r c, D r c → (∀ r' c', D r' c' → ix r' c' = ix r c → X r' c' = Y r' c') → act X r c = act Y r c)
    (P : Store M α → Prop) {cols : List Nat}
    (hstep : ∀ n ∈ cols, ∀ s, P s → P ((f n).run s) ∧
      ∀ r c, D r c → E ((f n).run s) r c = if ix r c = n then act (E s) r c else E s r c)
    (hnd : cols.Nodup) (s : Store M α) (hP : P s) :
    P (texec (cols.map f) s) ∧
      ∀ r c, D r c → E (texec (cols.map f) s) r c = if ix r c ∈ cols then act (E s) r c else E s r c := by
  induction cols generalizing s with
  | nil => exact ⟨hP, fun r c _ => by simp [texec_nil]⟩
  | cons n cols ih =>
    rw [List.nodup_cons] at hnd
    obtain ⟨h1, h2⟩ := hstep n (by simp) s hP
    obtain ⟨h3, h4⟩ := ih (fun n' h' => hstep n' (by simp [h'])) hnd.2 _ h1
    rw [List.map_cons, texec_cons]
    refine ⟨h3, fun r c hD => ?_⟩
    rw [h4 r c hD]
    by_cases hc : ix r c ∈ cols
    · have hne : ix r c ≠ n := fun e => hnd.1 (e ▸ hc)
      rw [if_pos hc, if_pos (by simp [hc])]
      refine hact _ _ _ _ hD fun r' c' hD' e => ?_
      rw [h2 r' c' hD', if_neg (by rw [e]; exact hne)]
    · rw [if_neg hc, h2 r c hD]
      simp [hc]

end

/-! ### The transformation of an operation -/

section
variable {M : Type u} {α : Type v} [CommRing α] [StarRing α]

/-- Number of rows an operation acts on. -/
def opDim (b mm : Nat) : Op → Nat
  | .ge _ k => tdim mm b k
  | .ts _ m k => tdim mm b k + tdim mm b m
  | .tt _ m k => tdim mm b k + tdim mm b m

/-- The rows an operation acts on. -/
def opRho (b mm : Nat) : Op → Nat → Nat
  | .ge _ k => fun i => k * b + i
  | .ts _ m k => fun i => if i < tdim mm b k then k * b + i else m * b + (i - tdim mm b k)
  | .tt _ m k => fun i => if i < tdim mm b k then k * b + i else m * b + (i - tdim mm b k)

/-- Number of reflectors of an operation. -/
def opK (b mm na : Nat) : Op → Nat
  | .ge j k => min (tdim mm b k) (tdim na b j)
  | .ts j m k => min (tdim mm b k + tdim mm b m) (tdim na b j)
  | .tt j m k => min (tdim mm b k + tdim mm b m) (tdim na b j)

/-- Row of the tile that holds the reflectors of an operation. -/
def _root_.Verif.Tree.Op.row : Op → Nat
  | .ge _ k => k
  | .ts _ m _ => m
  | .tt _ m _ => m

/-- Column of the `T` tile of an operation. -/
def opTc (off : Nat → Nat) : Op → Nat
  | .ge j _ => j
  | .ts j _ _ => off j
  | .tt j _ _ => off j

/-- Reflectors of an operation, from the tile that holds them. -/
def opV (b mm : Nat) (V : Nat → Nat → α) : Op → Nat → Nat → α
  | .ge _ _ => geV V
  | .ts _ _ k => tsV (tdim mm b k) V
  | .tt _ _ k => ttV (tdim mm b k) V

/-- Local matrix of an operation. -/
def opq (b mm na ib : Nat) (off : Nat → Nat) (A T : TMat M) (s : Store (M × Nat × Nat) α) (o : Op) :
    Matrix (Fin (opDim b mm o)) (Fin (opDim b mm o)) α :=
  wy (opDim b mm o) (opK b mm na o) ib (opV b mm (s (A.at' o.row o.col)) o) (s (T.at' o.row (opTc off o)))

/-- The unitary matrix of an operation. -/
def opQ (b mm na ib : Nat) (off : Nat → Nat) (A T : TMat M) (s : Store (M × Nat × Nat) α) (o : Op) :
    Matrix (Fin mm) (Fin mm) α :=
  gemb mm (opRho b mm o) (opq b mm na ib off A T s o)

/-- Rows and columns of an operation exist. -/
def _root_.Verif.Tree.Op.inB (mt nt : Nat) : Op → Prop
  | .ge j k => j < nt ∧ k < mt
  | .ts j m k => j < nt ∧ k < m ∧ m < mt
  | .tt j m k => j < nt ∧ k < m ∧ m < mt

theorem tdim_full {mm b k m : Nat} (hk : k < m) (hm : m * b < mm) : tdim mm b k = b := by
  unfold tdim
  have : (k + 1) * b ≤ m * b := Nat.mul_le_mul_right b (by omega)
  rw [Nat.add_mul] at this
  omega

theorem tdim_end {mm b k i : Nat} (h : i < tdim mm b k) : k * b + i < mm ∧ i < b := by
  unfold tdim at h; omega

theorem rowMap2 {b mm k m : Nat} (hk : k < m) :
    RowMap mm (tdim mm b k + tdim mm b m)
      (fun i => if i < tdim mm b k then k * b + i else m * b + (i - tdim mm b k)) := by
  have hle : k * b + b ≤ m * b := by
    have : (k + 1) * b ≤ m * b := Nat.mul_le_mul_right b (by omega)
    rw [Nat.add_mul] at this
    omega
  constructor
  · intro l hl
    split
    · next h => exact (tdim_end h).1
    · next h => exact (tdim_end (mm := mm) (b := b) (k := m) (i := l - tdim mm b k) (by omega)).1
  · intro l l' hl hl' e
    split at e <;> split at e
    · omega
    · next h h' => have := tdim_end h; omega
    · next h h' => have := tdim_end h'; omega
    · omega

theorem rowMap {b mm mt nt : Nat} {o : Op} (h : o.inB mt nt) : RowMap mm (opDim b mm o) (opRho b mm o) := by
  cases o with
  | ge j k => exact ⟨fun l hl => (tdim_end hl).1, fun l l' _ _ e => Nat.add_left_cancel e⟩
  | ts j m k => exact rowMap2 h.2.1
  | tt j m k => exact rowMap2 h.2.1

/-- Tile rows an operation acts on. -/
def _root_.Verif.Tree.Op.hits : Op → Nat → Prop
  | .ge _ k => fun r => r = k
  | .ts _ m k => fun r => r = k ∨ r = m
  | .tt _ m k => fun r => r = k ∨ r = m

/-- `stmqrL` is `op(Q)` on its rows. -/
theorem stmqrL_step {b mm : Nat} {tri t : Bool} {C : TMat M} (hC : C.Al b) (hm : C.d.m = mm) {k m n kk ib : Nat}
    (hk : k < m) (hmt : m < C.d.mt) (hn : n < C.d.nt) {V T : M × Nat × Nat}
    (s : Store (M × Nat × Nat) α) {r c : Nat} (hr : r < mm) (hc : c < C.d.n) :
    C.el ((stmqrL tri t (C.d.mview k) (C.d.nview n) (C.d.mview m) kk ib (C.at' k n) (C.at' m n) V T).run s) r c =
      if c / b = n then
        lmul (gemb mm (fun i => if i < tdim mm b k then k * b + i else m * b + (i - tdim mm b k))
          (qop t (wy (tdim mm b k + tdim mm b m) kk ib (stV tri (tdim mm b k) (s V)) (s T)))) (C.el s) r c
      else C.el s r c := by
  have hb := hC.pos
  rw [hC.mview (by omega), hC.mview hmt, hC.nview hn, hm]
  have hne : C.at' k n ≠ C.at' m n := fun e => by have := (TMat.at'_inj.mp e).1; omega
  have hnd : ∀ f g : Store (M × Nat × Nat) α → Tl α, (([⟨C.at' k n, box (tdim mm b k) (tdim C.d.n b n), f⟩,
      ⟨C.at' m n, box (tdim mm b m) (tdim C.d.n b n), g⟩] : List (Wr _ α)).map Wr.t).Nodup := fun f g => by
    simp [hne]
  have hrm := rowMap2 (b := b) (mm := mm) hk
  have hrb : r % b < tdim mm b (r / b) := mod_lt_tdim hb hr
  have hcb : c % b < tdim C.d.n b (c / b) := mod_lt_tdim hb hc
  have hst : ∀ l, l < tdim mm b k + tdim mm b m →
      vstack (tdim mm b k) (s (C.at' k (c / b))) (s (C.at' m (c / b))) l (c % b) =
        C.el s (if l < tdim mm b k then k * b + l else m * b + (l - tdim mm b k)) c := by
    intro l hl
    have hc' : c = c / b * b + c % b := (divmod c b).symm
    conv_rhs => rw [hc']
    unfold vstack
    split
    · next h => rw [hC.el_tile s (tdim_end h).2 (Nat.mod_lt _ hb)]
    · next h =>
      rw [hC.el_tile s (tdim_end (mm := mm) (k := m) (b := b) (i := l - tdim mm b k) (by omega)).2 (Nat.mod_lt _ hb)]
  have hel : ∀ s' : Store (M × Nat × Nat) α, C.el s' r c = s' (C.at' (r / b) (c / b)) (r % b) (c % b) := fun s' => by
    simp only [TMat.el, hC.mb, hC.nb]
  rw [hel, hel s]
  by_cases hcn : c / b = n
  · subst hcn
    rw [if_pos rfl]
    by_cases h1 : r / b = k
    · have e : (if r % b < tdim mm b k then k * b + r % b else m * b + (r % b - tdim mm b k)) = r := by
        rw [if_pos (by rw [← h1]; exact hrb), ← h1]; exact divmod r b
      rw [h1]
      unfold stmqrL
      refine Eq.trans (congrFun (congrFun (wop_at (hnd _ _)
        (w := ⟨C.at' k (c / b), box (tdim mm b k) (tdim C.d.n b (c / b)), _⟩) List.mem_cons_self s) _) _) ?_
      rw [paste_in ⟨by rw [← h1]; exact hrb, hcb⟩]
      dsimp only
      have h2 := lmul_gemb_in hrm (qop t (wy (tdim mm b k + tdim mm b m) kk ib (stV tri (tdim mm b k) (s V)) (s T)))
        (C.el s) (i := r % b) (by rw [← h1]; omega) c
      rw [e] at h2
      refine Eq.trans ?_ h2.symm
      exact lmul_eq (by rw [← h1]; omega) hst
    · by_cases h2 : r / b = m
      · have e : (if tdim mm b k + r % b < tdim mm b k then k * b + (tdim mm b k + r % b)
            else m * b + (tdim mm b k + r % b - tdim mm b k)) = r := by
          rw [if_neg (by omega), Nat.add_sub_cancel_left, ← h2]; exact divmod r b
        rw [h2]
        unfold stmqrL
        refine Eq.trans (congrFun (congrFun (wop_at (hnd _ _)
          (w := ⟨C.at' m (c / b), box (tdim mm b m) (tdim C.d.n b (c / b)), _⟩)
          (List.mem_cons_of_mem _ List.mem_cons_self) s) _) _) ?_
        rw [paste_in ⟨by rw [← h2]; exact hrb, hcb⟩]
        dsimp only
        have hlt : tdim mm b k + r % b < tdim mm b k + tdim mm b m := by rw [← h2]; omega
        have h3 := lmul_gemb_in hrm (qop t (wy (tdim mm b k + tdim mm b m) kk ib (stV tri (tdim mm b k) (s V)) (s T)))
          (C.el s) hlt c
        rw [e] at h3
        refine Eq.trans ?_ h3.symm
        exact lmul_eq hlt hst
      · unfold stmqrL
        have hout : ∀ l, l < tdim mm b k + tdim mm b m →
            (if l < tdim mm b k then k * b + l else m * b + (l - tdim mm b k)) ≠ r := by
          intro l hl e
          split at e
          · next h => rw [← e, div_of_tile (tdim_end h).2] at h1; exact h1 rfl
          · next h =>
            rw [← e, div_of_tile (tdim_end (mm := mm) (k := m) (b := b) (i := l - tdim mm b k) (by omega)).2] at h2
            exact h2 rfl
        rw [wop_ne, lmul_gemb_out _ _ hout, hel s]
        intro w hw
        simp only [List.mem_cons, List.not_mem_nil, or_false] at hw
        rcases hw with rfl | rfl <;> intro e <;> have := (TMat.at'_inj.mp e).1 <;> omega
  · rw [if_neg hcn]
    unfold stmqrL
    rw [wop_ne]
    intro w hw
    simp only [List.mem_cons, List.not_mem_nil, or_false] at hw
    rcases hw with rfl | rfl <;> intro e <;> exact hcn (TMat.at'_inj.mp e).2

/-- `unmqrL` is `op(Q)` on its rows. -/
theorem unmqrL_step {b mm : Nat} {t : Bool} {C : TMat M} (hC : C.Al b) (hm : C.d.m = mm) {k n kk ib : Nat}
    (hk : k < C.d.mt) (hn : n < C.d.nt) {V T : M × Nat × Nat}
    (s : Store (M × Nat × Nat) α) {r c : Nat} (hr : r < mm) (hc : c < C.d.n) :
    C.el ((unmqrL t (C.d.mview k) (C.d.nview n) kk ib V T (C.at' k n)).run s) r c =
      if c / b = n then
        lmul (gemb mm (fun i => k * b + i) (qop t (wy (tdim mm b k) kk ib (geV (s V)) (s T)))) (C.el s) r c
      else C.el s r c := by
  have hb := hC.pos
  rw [hC.mview hk, hC.nview hn, hm]
  have hrm : RowMap mm (tdim mm b k) (fun i => k * b + i) :=
    ⟨fun l hl => (tdim_end hl).1, fun l l' _ _ e => Nat.add_left_cancel e⟩
  have hrb : r % b < tdim mm b (r / b) := mod_lt_tdim hb hr
  have hcb : c % b < tdim C.d.n b (c / b) := mod_lt_tdim hb hc
  have hel : ∀ s' : Store (M × Nat × Nat) α, C.el s' r c = s' (C.at' (r / b) (c / b)) (r % b) (c % b) := fun s' => by
    simp only [TMat.el, hC.mb, hC.nb]
  rw [hel, hel s]
  by_cases hcn : c / b = n
  · subst hcn
    rw [if_pos rfl]
    by_cases h1 : r / b = k
    · subst h1
      unfold unmqrL
      rw [op2_self, paste_in ⟨hrb, hcb⟩]
      have h2 := lmul_gemb_in hrm (qop t (wy (tdim mm b (r / b)) kk ib (geV (s V)) (s T))) (C.el s) hrb c
      rw [divmod r b] at h2
      refine Eq.trans ?_ h2.symm
      refine lmul_eq hrb fun l hl => ?_
      have hc' : c = c / b * b + c % b := (divmod c b).symm
      conv_rhs => rw [hc']
      rw [hC.el_tile s (tdim_end hl).2 (Nat.mod_lt _ hb)]
    · unfold unmqrL
      have hout : ∀ l, l < tdim mm b k → k * b + l ≠ r := by
        intro l hl e
        rw [← e, div_of_tile (tdim_end hl).2] at h1
        exact h1 rfl
      rw [op2_ne _ (fun e => h1 (TMat.at'_inj.mp e).1), lmul_gemb_out _ _ hout, hel s]
  · rw [if_neg hcn]
    unfold unmqrL
    rw [op2_ne _ (fun e => hcn (TMat.at'_inj.mp e).2)]

/-- `stmqrR` is `op(Q)` on its columns. -/
theorem stmqrR_step {b nn : Nat} {tri t : Bool} {C : TMat M} (hC : C.Al b) (hm : C.d.n = nn) {k m n kk ib : Nat}
    (hk : k < m) (hmt : m < C.d.nt) (hn : n < C.d.mt) {V T : M × Nat × Nat}
    (s : Store (M × Nat × Nat) α) {r c : Nat} (hr : r < C.d.m) (hc : c < nn) :
    C.el ((stmqrR tri t (C.d.mview n) (C.d.nview k) (C.d.nview m) kk ib (C.at' n k) (C.at' n m) V T).run s) r c =
      if r / b = n then
        rmul (C.el s) (gemb nn (fun i => if i < tdim nn b k then k * b + i else m * b + (i - tdim nn b k))
          (qop t (wy (tdim nn b k + tdim nn b m) kk ib (stV tri (tdim nn b k) (s V)) (s T)))) r c
      else C.el s r c := by
  have hb := hC.pos
  rw [hC.nview (by omega), hC.nview hmt, hC.mview hn, hm]
  have hne : C.at' n k ≠ C.at' n m := fun e => by have := (TMat.at'_inj.mp e).2; omega
  have hnd : ∀ f g : Store (M × Nat × Nat) α → Tl α, (([⟨C.at' n k, box (tdim C.d.m b n) (tdim nn b k), f⟩,
      ⟨C.at' n m, box (tdim C.d.m b n) (tdim nn b m), g⟩] : List (Wr _ α)).map Wr.t).Nodup := fun f g => by
    simp [hne]
  have hrm := rowMap2 (b := b) (mm := nn) hk
  have hrb : r % b < tdim C.d.m b (r / b) := mod_lt_tdim hb hr
  have hcb : c % b < tdim nn b (c / b) := mod_lt_tdim hb hc
  have hst : ∀ l, l < tdim nn b k + tdim nn b m →
      hstack (tdim nn b k) (s (C.at' (r / b) k)) (s (C.at' (r / b) m)) (r % b) l =
        C.el s r (if l < tdim nn b k then k * b + l else m * b + (l - tdim nn b k)) := by
    intro l hl
    have hr' : r = r / b * b + r % b := (divmod r b).symm
    conv_rhs => rw [hr']
    unfold hstack
    split
    · next h => rw [hC.el_tile s (Nat.mod_lt _ hb) (tdim_end h).2]
    · next h =>
      rw [hC.el_tile s (Nat.mod_lt _ hb) (tdim_end (mm := nn) (k := m) (b := b) (i := l - tdim nn b k) (by omega)).2]
  have hel : ∀ s' : Store (M × Nat × Nat) α, C.el s' r c = s' (C.at' (r / b) (c / b)) (r % b) (c % b) := fun s' => by
    simp only [TMat.el, hC.mb, hC.nb]
  rw [hel, hel s]
  by_cases hrn : r / b = n
  · subst hrn
    rw [if_pos rfl]
    by_cases h1 : c / b = k
    · have e : (if c % b < tdim nn b k then k * b + c % b else m * b + (c % b - tdim nn b k)) = c := by
        rw [if_pos (by rw [← h1]; exact hcb), ← h1]; exact divmod c b
      rw [h1]
      unfold stmqrR
      refine Eq.trans (congrFun (congrFun (wop_at (hnd _ _)
        (w := ⟨C.at' (r / b) k, box (tdim C.d.m b (r / b)) (tdim nn b k), _⟩) List.mem_cons_self s) _) _) ?_
      rw [paste_in ⟨hrb, by rw [← h1]; exact hcb⟩]
      dsimp only
      have h2 := rmul_gemb_in hrm (qop t (wy (tdim nn b k + tdim nn b m) kk ib (stV tri (tdim nn b k) (s V)) (s T)))
        (C.el s) (i := c % b) (by rw [← h1]; omega) r
      rw [e] at h2
      refine Eq.trans ?_ h2.symm
      exact rmul_eq (by rw [← h1]; omega) hst
    · by_cases h2 : c / b = m
      · have e : (if tdim nn b k + c % b < tdim nn b k then k * b + (tdim nn b k + c % b)
            else m * b + (tdim nn b k + c % b - tdim nn b k)) = c := by
          rw [if_neg (by omega), Nat.add_sub_cancel_left, ← h2]; exact divmod c b
        rw [h2]
        unfold stmqrR
        refine Eq.trans (congrFun (congrFun (wop_at (hnd _ _)
          (w := ⟨C.at' (r / b) m, box (tdim C.d.m b (r / b)) (tdim nn b m), _⟩)
          (List.mem_cons_of_mem _ List.mem_cons_self) s) _) _) ?_
        rw [paste_in ⟨hrb, by rw [← h2]; exact hcb⟩]
        dsimp only
        have hlt : tdim nn b k + c % b < tdim nn b k + tdim nn b m := by rw [← h2]; omega
        have h3 := rmul_gemb_in hrm (qop t (wy (tdim nn b k + tdim nn b m) kk ib (stV tri (tdim nn b k) (s V)) (s T)))
          (C.el s) hlt r
        rw [e] at h3
        refine Eq.trans ?_ h3.symm
        exact rmul_eq hlt hst
      · unfold stmqrR
        have hout : ∀ l, l < tdim nn b k + tdim nn b m →
            (if l < tdim nn b k then k * b + l else m * b + (l - tdim nn b k)) ≠ c := by
          intro l hl e
          split at e
          · next h => rw [← e, div_of_tile (tdim_end h).2] at h1; exact h1 rfl
          · next h =>
            rw [← e, div_of_tile (tdim_end (mm := nn) (k := m) (b := b) (i := l - tdim nn b k) (by omega)).2] at h2
            exact h2 rfl
        rw [wop_ne, rmul_gemb_out _ _ hout, hel s]
        intro w hw
        simp only [List.mem_cons, List.not_mem_nil, or_false] at hw
        rcases hw with rfl | rfl <;> intro e <;> have := (TMat.at'_inj.mp e).2 <;> omega
  · rw [if_neg hrn]
    unfold stmqrR
    rw [wop_ne]
    intro w hw
    simp only [List.mem_cons, List.not_mem_nil, or_false] at hw
    rcases hw with rfl | rfl <;> intro e <;> exact hrn (TMat.at'_inj.mp e).1

/-- `unmqrR` is `op(Q)` on its columns. -/
theorem unmqrR_step {b nn : Nat} {t : Bool} {C : TMat M} (hC : C.Al b) (hm : C.d.n = nn) {k n kk ib : Nat}
    (hk : k < C.d.nt) (hn : n < C.d.mt) {V T : M × Nat × Nat}
    (s : Store (M × Nat × Nat) α) {r c : Nat} (hr : r < C.d.m) (hc : c < nn) :
    C.el ((unmqrR t (C.d.mview n) (C.d.nview k) kk ib V T (C.at' n k)).run s) r c =
      if r / b = n then
        rmul (C.el s) (gemb nn (fun i => k * b + i) (qop t (wy (tdim nn b k) kk ib (geV (s V)) (s T)))) r c
      else C.el s r c := by
  have hb := hC.pos
  rw [hC.nview hk, hC.mview hn, hm]
  have hrm : RowMap nn (tdim nn b k) (fun i => k * b + i) :=
    ⟨fun l hl => (tdim_end hl).1, fun l l' _ _ e => Nat.add_left_cancel e⟩
  have hrb : r % b < tdim C.d.m b (r / b) := mod_lt_tdim hb hr
  have hcb : c % b < tdim nn b (c / b) := mod_lt_tdim hb hc
  have hel : ∀ s' : Store (M × Nat × Nat) α, C.el s' r c = s' (C.at' (r / b) (c / b)) (r % b) (c % b) := fun s' => by
    simp only [TMat.el, hC.mb, hC.nb]
  rw [hel, hel s]
  by_cases hrn : r / b = n
  · subst hrn
    rw [if_pos rfl]
    by_cases h1 : c / b = k
    · subst h1
      unfold unmqrR
      rw [op2_self, paste_in ⟨hrb, hcb⟩]
      have h2 := rmul_gemb_in hrm (qop t (wy (tdim nn b (c / b)) kk ib (geV (s V)) (s T))) (C.el s) hcb r
      rw [divmod c b] at h2
      refine Eq.trans ?_ h2.symm
      refine rmul_eq hcb fun l hl => ?_
      have hr' : r = r / b * b + r % b := (divmod r b).symm
      conv_rhs => rw [hr']
      rw [hC.el_tile s (Nat.mod_lt _ hb) (tdim_end hl).2]
    · unfold unmqrR
      have hout : ∀ l, l < tdim nn b k → k * b + l ≠ c := by
        intro l hl e
        rw [← e, div_of_tile (tdim_end hl).2] at h1
        exact h1 rfl
      rw [op2_ne _ (fun e => h1 (TMat.at'_inj.mp e).2), rmul_gemb_out _ _ hout, hel s]
  · rw [if_neg hrn]
    unfold unmqrR
    rw [op2_ne _ (fun e => hrn (TMat.at'_inj.mp e).1)]

/-! ### Updates by one operation -/

theorem updL_writes {t : Bool} {ib : Nat} {off : Nat → Nat} {A T C : TMat M} {cols : List Nat} (o : Op) :
    Writes (fun x => ∃ r n, o.hits r ∧ n ∈ cols ∧ x = C.at' r n)
      (updL t ib off A T C cols o : List (TTask (M × Nat × Nat) α)) := by
  cases o with
  | ge j k => exact Writes.map fun n hn => writes_op2 ⟨k, n, rfl, hn, rfl⟩
  | ts j m k =>
    refine Writes.map fun n hn => writes_wop fun w hw => ?_
    simp only [List.mem_cons, List.not_mem_nil, or_false] at hw
    rcases hw with rfl | rfl
    · exact ⟨k, n, Or.inl rfl, hn, rfl⟩
    · exact ⟨m, n, Or.inr rfl, hn, rfl⟩
  | tt j m k =>
    refine Writes.map fun n hn => writes_wop fun w hw => ?_
    simp only [List.mem_cons, List.not_mem_nil, or_false] at hw
    rcases hw with rfl | rfl
    · exact ⟨k, n, Or.inl rfl, hn, rfl⟩
    · exact ⟨m, n, Or.inr rfl, hn, rfl⟩

theorem updR_writes {t : Bool} {ib : Nat} {off : Nat → Nat} {A T C : TMat M} {rows : List Nat} (o : Op) :
    Writes (fun x => ∃ r n, o.hits r ∧ n ∈ rows ∧ x = C.at' n r)
      (updR t ib off A T C rows o : List (TTask (M × Nat × Nat) α)) := by
  cases o with
  | ge j k => exact Writes.map fun n hn => writes_op2 ⟨k, n, rfl, hn, rfl⟩
  | ts j m k =>
    refine Writes.map fun n hn => writes_wop fun w hw => ?_
    simp only [List.mem_cons, List.not_mem_nil, or_false] at hw
    rcases hw with rfl | rfl
    · exact ⟨k, n, Or.inl rfl, hn, rfl⟩
    · exact ⟨m, n, Or.inr rfl, hn, rfl⟩
  | tt j m k =>
    refine Writes.map fun n hn => writes_wop fun w hw => ?_
    simp only [List.mem_cons, List.not_mem_nil, or_false] at hw
    rcases hw with rfl | rfl
    · exact ⟨k, n, Or.inl rfl, hn, rfl⟩
    · exact ⟨m, n, Or.inr rfl, hn, rfl⟩

theorem hits_of_row {o : Op} : o.hits o.row := by
  cases o with
  | ge j k => rfl
  | ts j m k => exact Or.inr rfl
  | tt j m k => exact Or.inr rfl

theorem stV_false {m1 : Nat} {V : Nat → Nat → α} : stV false m1 V = tsV m1 V := rfl
theorem stV_true {m1 : Nat} {V : Nat → Nat → α} : stV true m1 V = ttV m1 V := rfl

/-- Update of some tile columns by one operation. -/
theorem updL_el {b mm na ib : Nat} {off : Nat → Nat} {t : Bool} {A T C : TMat M} (hA : A.Al b) (hC : C.Al b)
    (hAm : A.d.m = mm) (hAn : A.d.n = na) (hCm : C.d.m = mm) {cols : List Nat} (hnd : cols.Nodup)
    (hlt : ∀ n ∈ cols, n < C.d.nt) {o : Op} (ho : o.inB A.d.mt A.d.nt) (hT : T.id ≠ C.id)
    (hV : ∀ r n, n ∈ cols → A.at' o.row o.col ≠ C.at' r n) (s : Store (M × Nat × Nat) α) :
    ∀ r c, r < mm → c < C.d.n →
      C.el (texec (updL t ib off A T C cols o) s) r c =
        if c / b ∈ cols then lmul (qop t (opQ b mm na ib off A T s o)) (C.el s) r c else C.el s r c := by
  have hmt : C.d.mt = A.d.mt := by rw [hC.mt_eq, hA.mt_eq, hCm, hAm]
  have hact : ∀ X Y : Nat → Nat → α, ∀ r c, (r < mm ∧ c < C.d.n) →
      (∀ r' c', (r' < mm ∧ c' < C.d.n) → c' / b = c / b → X r' c' = Y r' c') →
      lmul (qop t (opQ b mm na ib off A T s o)) X r c = lmul (qop t (opQ b mm na ib off A T s o)) Y r c :=
    fun X Y r c h h' => lmul_eq h.1 fun l hl => h' l c ⟨hl, h.2⟩ rfl
  have hTne : ∀ r n r' n', T.at' r n ≠ C.at' r' n' := fun _ _ _ _ => TMat.at'_ne hT
  let P : Store (M × Nat × Nat) α → Prop := fun s' =>
    s' (A.at' o.row o.col) = s (A.at' o.row o.col) ∧ s' (T.at' o.row (opTc off o)) = s (T.at' o.row (opTc off o))
  have hkeep : ∀ s' : Store (M × Nat × Nat) α, P s' → ∀ τ : TTask (M × Nat × Nat) α,
      (∀ x, (∀ r n, n ∈ cols → x ≠ C.at' r n) → τ.run s' x = s' x) → P (τ.run s') := fun s' hP τ h =>
    ⟨(h _ hV).trans hP.1, (h _ (fun r n _ => hTne _ _ _ _)).trans hP.2⟩
  intro r c hr hc
  unfold opQ
  rw [qop_gemb]
  cases o with
  | ge j k =>
    refine (fold_upd (E := C.el) (ix := fun _ c => c / b) (D := fun r c => r < mm ∧ c < C.d.n)
      (by simpa only [opQ, qop_gemb] using hact) P ?_ hnd s ⟨rfl, rfl⟩).2 r c ⟨hr, hc⟩
    intro n hn s' hP
    refine ⟨hkeep s' hP _ fun x hx => op2_ne _ (hx _ _ hn), fun r c hD => ?_⟩
    have h := unmqrL_step (t := t) (kk := min (A.d.mview k) (A.d.nview j)) (ib := ib) (V := A.at' k j) (T := T.at' k j)
      hC hCm (by rw [hmt]; exact ho.2) (hlt n hn) s' hD.1 hD.2
    rw [h]
    simp only [opq, opDim, opK, opRho, opV, Op.row, Op.col, opTc]
    have h1 : s' (A.at' k j) = s (A.at' k j) := hP.1
    have h2 : s' (T.at' k j) = s (T.at' k j) := hP.2
    rw [h1, h2, hA.mview ho.2, hA.nview ho.1, hAm, hAn]
  | ts j m k =>
    refine (fold_upd (E := C.el) (ix := fun _ c => c / b) (D := fun r c => r < mm ∧ c < C.d.n)
      (by simpa only [opQ, qop_gemb] using hact) P ?_ hnd s ⟨rfl, rfl⟩).2 r c ⟨hr, hc⟩
    intro n hn s' hP
    refine ⟨hkeep s' hP _ fun x hx => wop_ne _ fun w hw => ?_, fun r c hD => ?_⟩
    · simp only [List.mem_cons, List.not_mem_nil, or_false] at hw
      rcases hw with rfl | rfl <;> exact hx _ _ hn
    have h := stmqrL_step (tri := false) (t := t) (kk := min (A.d.mview k + A.d.mview m) (A.d.nview j)) (ib := ib)
      (V := A.at' m j) (T := T.at' m (off j)) hC hCm ho.2.1 (by rw [hmt]; exact ho.2.2) (hlt n hn) s' hD.1 hD.2
    rw [h]
    simp only [opq, opDim, opK, opRho, opV, Op.row, Op.col, opTc, stV_false]
    have h1 : s' (A.at' m j) = s (A.at' m j) := hP.1
    have h2 : s' (T.at' m (off j)) = s (T.at' m (off j)) := hP.2
    rw [h1, h2, hA.mview (lt_trans ho.2.1 ho.2.2), hA.mview ho.2.2, hA.nview ho.1, hAm, hAn]
  | tt j m k =>
    refine (fold_upd (E := C.el) (ix := fun _ c => c / b) (D := fun r c => r < mm ∧ c < C.d.n)
      (by simpa only [opQ, qop_gemb] using hact) P ?_ hnd s ⟨rfl, rfl⟩).2 r c ⟨hr, hc⟩
    intro n hn s' hP
    refine ⟨hkeep s' hP _ fun x hx => wop_ne _ fun w hw => ?_, fun r c hD => ?_⟩
    · simp only [List.mem_cons, List.not_mem_nil, or_false] at hw
      rcases hw with rfl | rfl <;> exact hx _ _ hn
    have h := stmqrL_step (tri := true) (t := t) (kk := min (A.d.mview k + A.d.mview m) (A.d.nview j)) (ib := ib)
      (V := A.at' m j) (T := T.at' m (off j)) hC hCm ho.2.1 (by rw [hmt]; exact ho.2.2) (hlt n hn) s' hD.1 hD.2
    rw [h]
    simp only [opq, opDim, opK, opRho, opV, Op.row, Op.col, opTc, stV_true]
    have h1 : s' (A.at' m j) = s (A.at' m j) := hP.1
    have h2 : s' (T.at' m (off j)) = s (T.at' m (off j)) := hP.2
    rw [h1, h2, hA.mview (lt_trans ho.2.1 ho.2.2), hA.mview ho.2.2, hA.nview ho.1, hAm, hAn]

/-- Update of some tile rows by one operation, from the right. -/
theorem updR_el {b mm na ib : Nat} {off : Nat → Nat} {t : Bool} {A T C : TMat M} (hA : A.Al b) (hC : C.Al b)
    (hAm : A.d.m = mm) (hAn : A.d.n = na) (hCm : C.d.n = mm) {rows : List Nat} (hnd : rows.Nodup)
    (hlt : ∀ n ∈ rows, n < C.d.mt) {o : Op} (ho : o.inB A.d.mt A.d.nt) (hT : T.id ≠ C.id)
    (hV : A.id ≠ C.id) (s : Store (M × Nat × Nat) α) :
    ∀ r c, r < C.d.m → c < mm →
      C.el (texec (updR t ib off A T C rows o) s) r c =
        if r / b ∈ rows then rmul (C.el s) (qop t (opQ b mm na ib off A T s o)) r c else C.el s r c := by
  have hmt : C.d.nt = A.d.mt := by rw [hC.nt_eq, hA.mt_eq, hCm, hAm]
  have hact : ∀ X Y : Nat → Nat → α, ∀ r c, (r < C.d.m ∧ c < mm) →
      (∀ r' c', (r' < C.d.m ∧ c' < mm) → r' / b = r / b → X r' c' = Y r' c') →
      rmul X (qop t (opQ b mm na ib off A T s o)) r c = rmul Y (qop t (opQ b mm na ib off A T s o)) r c :=
    fun X Y r c h h' => rmul_eq h.2 fun l hl => h' r l ⟨h.1, hl⟩ rfl
  have hTne : ∀ r n r' n', T.at' r n ≠ C.at' r' n' := fun _ _ _ _ => TMat.at'_ne hT
  let P : Store (M × Nat × Nat) α → Prop := fun s' =>
    s' (A.at' o.row o.col) = s (A.at' o.row o.col) ∧ s' (T.at' o.row (opTc off o)) = s (T.at' o.row (opTc off o))
  have hkeep : ∀ s' : Store (M × Nat × Nat) α, P s' → ∀ τ : TTask (M × Nat × Nat) α,
      (∀ x, (∀ r n, n ∈ rows → x ≠ C.at' n r) → τ.run s' x = s' x) → P (τ.run s') := fun s' hP τ h =>
    ⟨(h _ (fun r n _ => TMat.at'_ne hV)).trans hP.1, (h _ (fun r n _ => hTne _ _ _ _)).trans hP.2⟩
  intro r c hr hc
  unfold opQ
  rw [qop_gemb]
  cases o with
  | ge j k =>
    refine (fold_upd (E := C.el) (ix := fun r _ => r / b) (D := fun r c => r < C.d.m ∧ c < mm)
      (act := fun X r c => rmul X _ r c)
      (by simpa only [opQ, qop_gemb] using hact) P ?_ hnd s ⟨rfl, rfl⟩).2 r c ⟨hr, hc⟩
    intro n hn s' hP
    refine ⟨hkeep s' hP _ fun x hx => op2_ne _ (hx _ _ hn), fun r c hD => ?_⟩
    have h := unmqrR_step (t := t) (kk := min (A.d.mview k) (A.d.nview j)) (ib := ib) (V := A.at' k j) (T := T.at' k j)
      hC hCm (by rw [hmt]; exact ho.2) (hlt n hn) s' hD.1 hD.2
    rw [h]
    simp only [opq, opDim, opK, opRho, opV, Op.row, Op.col, opTc]
    have h1 : s' (A.at' k j) = s (A.at' k j) := hP.1
    have h2 : s' (T.at' k j) = s (T.at' k j) := hP.2
    rw [h1, h2, hA.mview ho.2, hA.nview ho.1, hAm, hAn]
  | ts j m k =>
    refine (fold_upd (E := C.el) (ix := fun r _ => r / b) (D := fun r c => r < C.d.m ∧ c < mm)
      (act := fun X r c => rmul X _ r c)
      (by simpa only [opQ, qop_gemb] using hact) P ?_ hnd s ⟨rfl, rfl⟩).2 r c ⟨hr, hc⟩
    intro n hn s' hP
    refine ⟨hkeep s' hP _ fun x hx => wop_ne _ fun w hw => ?_, fun r c hD => ?_⟩
    · simp only [List.mem_cons, List.not_mem_nil, or_false] at hw
      rcases hw with rfl | rfl <;> exact hx _ _ hn
    have h := stmqrR_step (tri := false) (t := t) (kk := min (A.d.mview k + A.d.mview m) (A.d.nview j)) (ib := ib)
      (V := A.at' m j) (T := T.at' m (off j)) hC hCm ho.2.1 (by rw [hmt]; exact ho.2.2) (hlt n hn) s' hD.1 hD.2
    rw [h]
    simp only [opq, opDim, opK, opRho, opV, Op.row, Op.col, opTc, stV_false]
    have h1 : s' (A.at' m j) = s (A.at' m j) := hP.1
    have h2 : s' (T.at' m (off j)) = s (T.at' m (off j)) := hP.2
    rw [h1, h2, hA.mview (lt_trans ho.2.1 ho.2.2), hA.mview ho.2.2, hA.nview ho.1, hAm, hAn]
  | tt j m k =>
    refine (fold_upd (E := C.el) (ix := fun r _ => r / b) (D := fun r c => r < C.d.m ∧ c < mm)
      (act := fun X r c => rmul X _ r c)
      (by simpa only [opQ, qop_gemb] using hact) P ?_ hnd s ⟨rfl, rfl⟩).2 r c ⟨hr, hc⟩
    intro n hn s' hP
    refine ⟨hkeep s' hP _ fun x hx => wop_ne _ fun w hw => ?_, fun r c hD => ?_⟩
    · simp only [List.mem_cons, List.not_mem_nil, or_false] at hw
      rcases hw with rfl | rfl <;> exact hx _ _ hn
    have h := stmqrR_step (tri := true) (t := t) (kk := min (A.d.mview k + A.d.mview m) (A.d.nview j)) (ib := ib)
      (V := A.at' m j) (T := T.at' m (off j)) hC hCm ho.2.1 (by rw [hmt]; exact ho.2.2) (hlt n hn) s' hD.1 hD.2
    rw [h]
    simp only [opq, opDim, opK, opRho, opV, Op.row, Op.col, opTc, stV_true]
    have h1 : s' (A.at' m j) = s (A.at' m j) := hP.1
    have h2 : s' (T.at' m (off j)) = s (T.at' m (off j)) := hP.2
    rw [h1, h2, hA.mview (lt_trans ho.2.1 ho.2.2), hA.mview ho.2.2, hA.nview ho.1, hAm, hAn]

end

end Verif.Qr

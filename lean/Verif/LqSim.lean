/-
The LQ programs on a matrix simulate the QR programs on its conjugate transpose.
-/
import Verif.Lq
import Verif.QrGood

namespace Verif.Qr

open Verif.Layout Verif.Tile Verif.Tree Finset Matrix

universe u v

section
variable {α : Type v} [CommRing α] [StarRing α]

theorem cT_cT (X : Nat → Nat → α) : cT (cT X) = X := by funext i j; exact star_star _

theorem cT_lmul {d : Nat} (Q : Matrix (Fin d) (Fin d) α) (X : Nat → Nat → α) : cT (lmul Q X) = rmul (cT X) Qᴴ := by
  funext i j
  unfold cT lmul rmul
  split
  · rw [star_sum]
    exact sum_congr rfl fun l _ => by rw [star_mul', mul_comm]; rfl
  · rfl

theorem cT_rmul {d : Nat} (Q : Matrix (Fin d) (Fin d) α) (X : Nat → Nat → α) : cT (rmul X Q) = lmul Qᴴ (cT X) := by
  funext i j
  unfold cT lmul rmul
  split
  · rw [star_sum]
    exact sum_congr rfl fun l _ => by rw [star_mul', mul_comm]; rfl
  · rfl

theorem cT_vstack (m : Nat) (X Y : Nat → Nat → α) : cT (vstack m X Y) = hstack m (cT X) (cT Y) := by
  funext i j
  unfold cT vstack hstack
  split <;> rfl

theorem cT_hstack (m : Nat) (X Y : Nat → Nat → α) : cT (hstack m X Y) = vstack m (cT X) (cT Y) := by
  funext i j
  unfold cT vstack hstack
  split <;> rfl

theorem qop_not_star (t : Bool) {d : Nat} (Q : Matrix (Fin d) (Fin d) α) : (qop (!t) Q)ᴴ = qop t Q := by
  cases t
  · exact conjTranspose_conjTranspose Q
  · rfl

end

/-! ### The relation between the stores -/

/-- How tiles of the LQ program correspond to tiles of the QR program: tile `(r, c)` of a matrix is the conjugate
transpose of tile `(c, r)`; the `T` tiles (allocation `tid`) move to `pos` and are the same. -/
structure Flip (M : Type u) where
  tid : M
  pos : Nat → Nat → Nat × Nat
  dom : Nat → Nat → Prop
  inj : ∀ r c r' c', dom r c → dom r' c' → pos r c = pos r' c' → r = r' ∧ c = c'

namespace Flip
variable {M : Type u} {α : Type v} [CommRing α] [StarRing α] (F : Flip M)

open Classical in
/-- The LQ tile of a QR tile. -/
noncomputable def nm (x : M × Nat × Nat) : M × Nat × Nat :=
  if x.1 = F.tid then (F.tid, F.pos x.2.1 x.2.2) else (x.1, x.2.2, x.2.1)

/-- Tiles in use. -/
def ok (x : M × Nat × Nat) : Prop := x.1 = F.tid → F.dom x.2.1 x.2.2

open Classical in
/-- The contents. -/
noncomputable def tl (x : M × Nat × Nat) (X : Tl α) : Tl α := if x.1 = F.tid then X else cT X

/-- Store `s` of the LQ program and store `s'` of the QR program correspond. -/
def rel (s s' : Store (M × Nat × Nat) α) : Prop := ∀ x, F.ok x → s' x = F.tl x (s (F.nm x))

/-- The QR store of an LQ store. -/
noncomputable def tr (s : Store (M × Nat × Nat) α) : Store (M × Nat × Nat) α := fun x => F.tl x (s (F.nm x))

theorem rel_tr (s : Store (M × Nat × Nat) α) : F.rel s (F.tr s) := fun _ _ => rfl

variable {F}

theorem nm_inj {x y : M × Nat × Nat} (hx : F.ok x) (hy : F.ok y) (h : F.nm x = F.nm y) : x = y := by
  obtain ⟨a, r, c⟩ := x
  obtain ⟨a', r', c'⟩ := y
  unfold nm at h
  dsimp only at h
  unfold ok at hx hy
  dsimp only at hx hy
  split at h <;> split at h
  · next e e' =>
    have := F.inj _ _ _ _ (hx e) (hy e') (Prod.mk.inj h).2
    rw [e, e', this.1, this.2]
  · next e e' => exact absurd (Prod.mk.inj h).1.symm e'
  · next e e' => exact absurd (Prod.mk.inj h).1 e
  · simp only [Prod.mk.injEq] at h
    rw [h.1, h.2.1, h.2.2]

variable (F) in
/-- The LQ program `P` simulates the QR program `P'`. -/
def Sim (P P' : List (TTask (M × Nat × Nat) α)) : Prop := ∀ s s', F.rel s s' → F.rel (texec P s) (texec P' s')

theorem Sim.nil : F.Sim (α := α) [] [] := fun _ _ h => h

theorem Sim.append {P Q P' Q' : List (TTask (M × Nat × Nat) α)} (h1 : F.Sim P P') (h2 : F.Sim Q Q') :
    F.Sim (P ++ Q) (P' ++ Q') := fun s s' h => by
  rw [texec_append, texec_append]
  exact h2 _ _ (h1 _ _ h)

theorem Sim.flatMap {ι : Type*} {l : List ι} {f g : ι → List (TTask (M × Nat × Nat) α)}
    (h : ∀ x ∈ l, F.Sim (f x) (g x)) : F.Sim (l.flatMap f) (l.flatMap g) := by
  induction l with
  | nil => exact Sim.nil
  | cons x l ih =>
    rw [List.flatMap_cons, List.flatMap_cons]
    exact (h x List.mem_cons_self).append (ih fun y hy => h y (List.mem_cons_of_mem _ hy))

theorem Sim.map {ι : Type*} {l : List ι} {f g : ι → TTask (M × Nat × Nat) α}
    (h : ∀ x ∈ l, F.Sim [f x] [g x]) : F.Sim (l.map f) (l.map g) := by
  induction l with
  | nil => exact Sim.nil
  | cons x l ih =>
    rw [List.map_cons, List.map_cons]
    exact Sim.append (P := [_]) (P' := [_]) (h x List.mem_cons_self) (ih fun y hy => h y (List.mem_cons_of_mem _ hy))

/-- A write of the LQ program corresponds to a write of the QR program. -/
def WSim (F : Flip M) (w w' : Wr (M × Nat × Nat) α) : Prop :=
  F.ok w'.t ∧ w.t = F.nm w'.t ∧ ∀ s s', F.rel s s' →
    paste w'.r (w'.f s') (s' w'.t) = F.tl w'.t (paste w.r (w.f s) (s w.t))

theorem sim_wop {rds rds' : List ((M × Nat × Nat) × (Nat → Nat → Prop))} {ws ws' : List (Wr (M × Nat × Nat) α)}
    (h : List.Forall₂ (WSim F) ws ws') (hnd : (ws'.map Wr.t).Nodup) : F.Sim [wop rds ws] [wop rds' ws'] := by
  have hpair : ∀ w' ∈ ws', ∃ w ∈ ws, WSim F w w' := by
    clear hnd
    induction h with
    | nil => intro w' h'; cases h'
    | cons h1 _ ih =>
      intro w' h'
      rcases List.mem_cons.mp h' with rfl | h'
      · exact ⟨_, List.mem_cons_self, h1⟩
      · obtain ⟨w, hw, e⟩ := ih w' h'
        exact ⟨w, List.mem_cons_of_mem _ hw, e⟩
  have hpair' : ∀ w ∈ ws, ∃ w' ∈ ws', WSim F w w' := by
    clear hnd hpair
    induction h with
    | nil => intro w' h'; cases h'
    | cons h1 _ ih =>
      intro w' h'
      rcases List.mem_cons.mp h' with rfl | h'
      · exact ⟨_, List.mem_cons_self, h1⟩
      · obtain ⟨w, hw, e⟩ := ih w' h'
        exact ⟨w, List.mem_cons_of_mem _ hw, e⟩
  have hnd0 : (ws.map Wr.t).Nodup := by
    have e : ws.map Wr.t = (ws'.map Wr.t).map F.nm := by
      clear hnd hpair hpair'
      induction h with
      | nil => rfl
      | cons h1 _ ih => rw [List.map_cons, List.map_cons, List.map_cons, ih, h1.2.1]
    rw [e]
    refine hnd.map_on ?_
    intro x hx y hy exy
    obtain ⟨w, hw, rfl⟩ := List.mem_map.mp hx
    obtain ⟨v, hv, rfl⟩ := List.mem_map.mp hy
    obtain ⟨_, _, h1⟩ := hpair w hw
    obtain ⟨_, _, h2⟩ := hpair v hv
    exact nm_inj h1.1 h2.1 exy
  intro s s' hs x hx
  rw [texec_cons, texec_nil, texec_cons, texec_nil]
  by_cases hm : ∃ w' ∈ ws', x = w'.t
  · obtain ⟨w', hw', rfl⟩ := hm
    obtain ⟨w, hw, h1, h2, h3⟩ := hpair w' hw'
    rw [wop_at hnd hw', ← h2, wop_at hnd0 hw]
    exact h3 s s' hs
  · rw [wop_ne s' (fun w' hw' e => hm ⟨w', hw', e⟩), wop_ne s, hs x hx]
    intro w hw e
    obtain ⟨w', hw', h1, h2, -⟩ := hpair' w hw
    exact hm ⟨w', hw', nm_inj hx h1 (e.trans h2)⟩

theorem sim_op2 {V V' T T' C C' : M × Nat × Nat} {rv rv' rt rt' rc rc' : Nat → Nat → Prop}
    {f f' : Tl α → Tl α → Tl α → Tl α} (hV : F.ok V') (hT : F.ok T') (hC : F.ok C') (eV : V = F.nm V') (eT : T = F.nm T')
    (eC : C = F.nm C') (h : ∀ v τ c, paste rc' (f' (F.tl V' v) (F.tl T' τ) (F.tl C' c)) (F.tl C' c) = F.tl C' (paste rc (f v τ c) c)) :
    F.Sim [op2 V rv T rt C rc f] [op2 V' rv' T' rt' C' rc' f'] := by
  intro s s' hs x hx
  rw [texec_cons, texec_nil, texec_cons, texec_nil]
  by_cases e : x = C'
  · subst e
    rw [op2_self, ← eC, op2_self, hs _ hV, hs _ hT, hs _ hC, ← eV, ← eT, ← eC]
    exact h _ _ _
  · rw [op2_ne _ e, op2_ne, hs x hx]
    intro e'
    exact e (nm_inj hx hC (e'.trans eC))

theorem tl_mat {x : M × Nat × Nat} (h : x.1 ≠ F.tid) (X : Tl α) : F.tl x X = cT X := if_neg h
theorem tl_T {x : M × Nat × Nat} (h : x.1 = F.tid) (X : Tl α) : F.tl x X = X := if_pos h

theorem paste_cT {r r' : Nat → Nat → Prop} {X Y X' : Tl α} (hr : ∀ i j, r' i j ↔ r j i)
    (h : ∀ i j, r' i j → X' i j = cT X i j) : paste r' X' (cT Y) = cT (paste r X Y) := by
  funext i j
  by_cases hij : r' i j
  · rw [paste_in hij, h i j hij]
    show _ = star (paste r X Y j i)
    rw [paste_in ((hr i j).mp hij)]; rfl
  · rw [paste_out hij]
    show _ = star (paste r X Y j i)
    rw [paste_out (fun h => hij ((hr i j).mpr h))]; rfl

theorem wsim_mat {w w' : Wr (M × Nat × Nat) α} (ht : w'.t.1 ≠ F.tid) (e : w.t = F.nm w'.t)
    (hr : ∀ i j, w'.r i j ↔ w.r j i) (hf : ∀ s s', F.rel s s' → ∀ i j, w'.r i j → w'.f s' i j = cT (w.f s) i j) :
    WSim F w w' := by
  have hok : F.ok w'.t := fun h => absurd h ht
  refine ⟨hok, e, fun s s' hs => ?_⟩
  rw [tl_mat ht, hs _ hok, tl_mat ht, ← e]
  exact paste_cT hr (hf s s' hs)

theorem wsim_T {w w' : Wr (M × Nat × Nat) α} (hok : F.ok w'.t) (ht : w'.t.1 = F.tid) (e : w.t = F.nm w'.t)
    (hr : w'.r = w.r) (hf : ∀ s s', F.rel s s' → w'.f s' = w.f s) : WSim F w w' := by
  refine ⟨hok, e, fun s s' hs => ?_⟩
  rw [tl_T ht, hs _ hok, tl_T ht, ← e, hr, hf s s' hs]

/-! ### The tasks -/

section tasks
variable {V V' T T' C C' A1 A1' A2 A2' : M × Nat × Nat} {t tri : Bool} {m n k ib m1 m2 : Nat} {K : QrKern α}

theorem sim_unmL (hV : V'.1 ≠ F.tid) (hT : T'.1 = F.tid) (hTo : F.ok T') (hC : C'.1 ≠ F.tid) (eV : V = F.nm V')
    (eT : T = F.nm T') (eC : C = F.nm C') :
    F.Sim (α := α) [unmlqL t m n k ib V T C] [unmqrR t n m k ib V' T' C'] := by
  refine sim_op2 (fun h => absurd h hV) hTo (fun h => absurd h hC) eV eT eC fun v τ c => ?_
  rw [tl_mat hV, tl_T hT, tl_mat hC, tl_mat hC]
  refine paste_cT (fun i j => and_comm) fun i j _ => ?_
  rw [cT_lmul, qop_not_star]

theorem sim_unmR (hV : V'.1 ≠ F.tid) (hT : T'.1 = F.tid) (hTo : F.ok T') (hC : C'.1 ≠ F.tid) (eV : V = F.nm V')
    (eT : T = F.nm T') (eC : C = F.nm C') :
    F.Sim (α := α) [unmlqR t m n k ib V T C] [unmqrL t n m k ib V' T' C'] := by
  refine sim_op2 (fun h => absurd h hV) hTo (fun h => absurd h hC) eV eT eC fun v τ c => ?_
  rw [tl_mat hV, tl_T hT, tl_mat hC, tl_mat hC]
  refine paste_cT (fun i j => and_comm) fun i j _ => ?_
  rw [cT_rmul, qop_not_star]

theorem rel_mat {s s' : Store (M × Nat × Nat) α} (hs : F.rel s s') {x y : M × Nat × Nat} (h : y.1 ≠ F.tid) (e : x = F.nm y) :
    s' y = cT (s x) := by rw [hs y (fun h' => absurd h' h), tl_mat h, e]

theorem rel_T {s s' : Store (M × Nat × Nat) α} (hs : F.rel s s') {x y : M × Nat × Nat} (h : y.1 = F.tid) (ho : F.ok y)
    (e : x = F.nm y) : s' y = s x := by rw [hs y ho, tl_T h, e]

theorem sim_stmL (h1 : A1'.1 ≠ F.tid) (h2 : A2'.1 ≠ F.tid) (hV : V'.1 ≠ F.tid) (hT : T'.1 = F.tid) (hTo : F.ok T')
    (e1 : A1 = F.nm A1') (e2 : A2 = F.nm A2') (eV : V = F.nm V') (eT : T = F.nm T') (hne : A1' ≠ A2') :
    F.Sim (α := α) [stmlqL tri t m1 n m2 k ib A1 A2 V T] [stmqrR tri t n m1 m2 k ib A1' A2' V' T'] := by
  refine sim_wop (.cons ?_ (.cons ?_ .nil)) (by simpa using hne)
  · refine wsim_mat h1 e1 (fun i j => and_comm) fun s s' hs i j _ => ?_
    dsimp only
    rw [rel_mat hs h1 e1, rel_mat hs h2 e2, rel_mat hs hV eV, rel_T hs hT hTo eT, ← cT_vstack, ← qop_not_star, ← cT_lmul]
  · refine wsim_mat h2 e2 (fun i j => and_comm) fun s s' hs i j _ => ?_
    dsimp only
    rw [rel_mat hs h1 e1, rel_mat hs h2 e2, rel_mat hs hV eV, rel_T hs hT hTo eT, ← cT_vstack, ← qop_not_star, ← cT_lmul]
    rfl

theorem sim_stmR (h1 : A1'.1 ≠ F.tid) (h2 : A2'.1 ≠ F.tid) (hV : V'.1 ≠ F.tid) (hT : T'.1 = F.tid) (hTo : F.ok T')
    (e1 : A1 = F.nm A1') (e2 : A2 = F.nm A2') (eV : V = F.nm V') (eT : T = F.nm T') (hne : A1' ≠ A2') :
    F.Sim (α := α) [stmlqR tri t m m1 m2 k ib A1 A2 V T] [stmqrL tri t m1 m m2 k ib A1' A2' V' T'] := by
  refine sim_wop (.cons ?_ (.cons ?_ .nil)) (by simpa using hne)
  · refine wsim_mat h1 e1 (fun i j => and_comm) fun s s' hs i j _ => ?_
    dsimp only
    rw [rel_mat hs h1 e1, rel_mat hs h2 e2, rel_mat hs hV eV, rel_T hs hT hTo eT, ← cT_hstack, ← qop_not_star, ← cT_rmul]
  · refine wsim_mat h2 e2 (fun i j => and_comm) fun s s' hs i j _ => ?_
    dsimp only
    rw [rel_mat hs h1 e1, rel_mat hs h2 e2, rel_mat hs hV eV, rel_T hs hT hTo eT, ← cT_hstack, ← qop_not_star, ← cT_rmul]
    rfl

theorem sim_ge (h1 : A1'.1 ≠ F.tid) (hT : T'.1 = F.tid) (hTo : F.ok T') (e1 : A1 = F.nm A1') (eT : T = F.nm T') :
    F.Sim [gelqtT K m n ib A1 T] [geqrtT K n m ib A1' T'] := by
  have hne : A1' ≠ T' := fun e => h1 (e ▸ hT)
  refine sim_wop (.cons ?_ (.cons ?_ .nil)) (by simpa using hne)
  · refine wsim_mat h1 e1 (fun i j => and_comm) fun s s' hs i j _ => ?_
    dsimp only
    rw [rel_mat hs h1 e1, cT_cT]
  · refine wsim_T hTo hT eT (by dsimp only; rw [Nat.min_comm]) fun s s' hs => ?_
    dsimp only
    rw [rel_mat hs h1 e1]

theorem sim_ts (h1 : A1'.1 ≠ F.tid) (h2 : A2'.1 ≠ F.tid) (hT : T'.1 = F.tid) (hTo : F.ok T') (e1 : A1 = F.nm A1')
    (e2 : A2 = F.nm A2') (eT : T = F.nm T') (hne : A1' ≠ A2') :
    F.Sim [tslqtT K m n ib A1 A2 T] [tsqrtT K n m ib A1' A2' T'] := by
  have hne1 : A1' ≠ T' := fun e => h1 (e ▸ hT)
  have hne2 : A2' ≠ T' := fun e => h2 (e ▸ hT)
  refine sim_wop (.cons ?_ (.cons ?_ (.cons ?_ .nil))) (by simp [hne, hne1, hne2])
  · refine wsim_mat h1 e1 (fun i j => Iff.rfl) fun s s' hs i j _ => ?_
    dsimp only
    rw [rel_mat hs h1 e1, rel_mat hs h2 e2, rel_T hs hT hTo eT, cT_cT]
  · refine wsim_mat h2 e2 (fun i j => and_comm) fun s s' hs i j _ => ?_
    dsimp only
    rw [rel_mat hs h1 e1, rel_mat hs h2 e2, rel_T hs hT hTo eT, cT_cT]
  · refine wsim_T hTo hT eT rfl fun s s' hs => ?_
    dsimp only
    rw [rel_mat hs h1 e1, rel_mat hs h2 e2, rel_T hs hT hTo eT]

theorem sim_tt (h1 : A1'.1 ≠ F.tid) (h2 : A2'.1 ≠ F.tid) (hT : T'.1 = F.tid) (hTo : F.ok T') (e1 : A1 = F.nm A1')
    (e2 : A2 = F.nm A2') (eT : T = F.nm T') (hne : A1' ≠ A2') :
    F.Sim [ttlqtT K m n ib A1 A2 T] [ttqrtT K n m ib A1' A2' T'] := by
  have hne1 : A1' ≠ T' := fun e => h1 (e ▸ hT)
  have hne2 : A2' ≠ T' := fun e => h2 (e ▸ hT)
  refine sim_wop (.cons ?_ (.cons ?_ (.cons ?_ .nil))) (by simp [hne, hne1, hne2])
  · refine wsim_mat h1 e1 (fun i j => Iff.rfl) fun s s' hs i j _ => ?_
    dsimp only
    rw [rel_mat hs h1 e1, rel_mat hs h2 e2, rel_T hs hT hTo eT, cT_cT]
  · refine wsim_mat h2 e2 (fun i j => ?_) fun s s' hs i j _ => ?_
    · show i ≤ j ∧ i < n ∧ j < m ↔ i ≤ j ∧ j < m ∧ i < n
      omega
    · dsimp only
      rw [rel_mat hs h1 e1, rel_mat hs h2 e2, rel_T hs hT hTo eT, cT_cT]
  · refine wsim_T hTo hT eT rfl fun s s' hs => ?_
    dsimp only
    rw [rel_mat hs h1 e1, rel_mat hs h2 e2, rel_T hs hT hTo eT]

end tasks

end Flip

/-! ### Descriptors -/

section
variable {M : Type u} {α : Type v} [CommRing α] [StarRing α]

/-- The descriptor of the transposed matrix. -/
def _root_.Verif.Tile.TMat.trp (A : TMat M) : TMat M :=
  ⟨A.id, { A.d with mb := A.d.nb, nb := A.d.mb, i := A.d.j, j := A.d.i, m := A.d.n, n := A.d.m, mt := A.d.nt, nt := A.d.mt }⟩

variable {b : Nat} {A C : TMat M} {F : Flip M}

theorem trp_al (h : A.Al b) : A.trp.Al b := ⟨h.pos, h.nb, h.mb, h.j, h.i, h.nt, h.mt⟩
theorem trp_mview (k : Nat) : A.trp.d.mview k = A.d.nview k := rfl
theorem trp_nview (k : Nat) : A.trp.d.nview k = A.d.mview k := rfl

theorem trp_nm (h : A.id ≠ F.tid) (m n : Nat) : A.at' m n = F.nm (A.trp.at' n m) := by
  unfold Flip.nm
  rw [if_neg (by exact h)]
  rfl

theorem trp_el (h : A.id ≠ F.tid) {s s' : Store (M × Nat × Nat) α} (hs : F.rel s s') (r c : Nat) :
    A.trp.el s' r c = star (A.el s c r) := by
  unfold TMat.el
  exact congrFun (congrFun (F.rel_mat hs (x := A.at' (c / A.d.mb) (r / A.d.nb)) (y := A.trp.at' (r / A.d.nb) (c / A.d.mb)) h
    (trp_nm h _ _)) _) _

/-! ### The loop nests -/

/-- The `T` tile of an operation of the LQ programs. -/
def lTt (off : Nat → Nat) (T : TMat M) : Op → M × Nat × Nat
  | .ge j k => T.at' j k
  | .ts j m _ => T.at' j (off m)
  | .tt j m _ => T.at' j (off m)

/-- The `T` tiles of an operation correspond. -/
structure TSim (F : Flip M) (off off' : Nat → Nat) (T T' : TMat M) (o : Op) : Prop where
  id : T'.id = F.tid
  ok : F.ok (opTt off' T' o)
  nm : lTt off T o = F.nm (opTt off' T' o)

theorem lcnt_eq (hA : A.Al b) (plus : Bool) {j m k : Nat} (hj : j < A.d.mt) (hk : k < m) (hm : m < A.d.nt) :
    lcnt plus A.d j m k = min (A.trp.d.mview k + A.trp.d.mview m) (A.trp.d.nview j) := by
  have h1 : A.d.nview k = b := nview_full hA hk hm
  have h2 : A.d.mview j ≤ b := nview_le (trp_al hA) (k := j) hj
  unfold lcnt
  rw [trp_mview, trp_mview, trp_nview, h1]
  cases plus
  · simp only [Bool.false_eq_true, if_false]; omega
  · simp only [if_true]; omega

variable {T T' : TMat M} {off off' : Nat → Nat} {ib : Nat} {K : QrKern α}

theorem trp_nm' (h : A.id ≠ F.tid) (m n : Nat) : (A.trp.at' n m).1 ≠ F.tid := h

theorem sim_lupdL (plus t : Bool) (hA : A.Al b) (hAF : A.id ≠ F.tid) (hCF : C.id ≠ F.tid) (cols : List Nat) {o : Op}
    (ho : o.inB A.d.nt A.d.mt) (hT : TSim F off off' T T' o) :
    F.Sim (α := α) (lupdL plus t ib off A T C cols o) (updR t ib off' A.trp T' C.trp cols o) := by
  cases o with
  | ge j k =>
    refine Flip.Sim.map fun n _ => ?_
    rw [Nat.min_comm]
    exact Flip.sim_unmL hAF hT.id hT.ok hCF (trp_nm hAF _ _) hT.nm (trp_nm hCF _ _)
  | ts j m k =>
    refine Flip.Sim.map fun n _ => ?_
    rw [lcnt_eq hA plus ho.1 ho.2.1 ho.2.2]
    exact Flip.sim_stmL hCF hCF hAF hT.id hT.ok (trp_nm hCF _ _) (trp_nm hCF _ _) (trp_nm hAF _ _) hT.nm
      (at'_ne_col (by have := ho.2.1; omega))
  | tt j m k =>
    refine Flip.Sim.map fun n _ => ?_
    rw [lcnt_eq hA plus ho.1 ho.2.1 ho.2.2]
    exact Flip.sim_stmL hCF hCF hAF hT.id hT.ok (trp_nm hCF _ _) (trp_nm hCF _ _) (trp_nm hAF _ _) hT.nm
      (at'_ne_col (by have := ho.2.1; omega))

theorem sim_lupdR (plus t : Bool) (hA : A.Al b) (hAF : A.id ≠ F.tid) (hCF : C.id ≠ F.tid) (rows : List Nat) {o : Op}
    (ho : o.inB A.d.nt A.d.mt) (hT : TSim F off off' T T' o) :
    F.Sim (α := α) (lupdR plus t ib off A T C rows o) (updL t ib off' A.trp T' C.trp rows o) := by
  cases o with
  | ge j k =>
    refine Flip.Sim.map fun n _ => ?_
    rw [Nat.min_comm]
    exact Flip.sim_unmR hAF hT.id hT.ok hCF (trp_nm hAF _ _) hT.nm (trp_nm hCF _ _)
  | ts j m k =>
    refine Flip.Sim.map fun n _ => ?_
    rw [lcnt_eq hA plus ho.1 ho.2.1 ho.2.2]
    exact Flip.sim_stmR hCF hCF hAF hT.id hT.ok (trp_nm hCF _ _) (trp_nm hCF _ _) (trp_nm hAF _ _) hT.nm
      (at'_ne_row (by have := ho.2.1; omega))
  | tt j m k =>
    refine Flip.Sim.map fun n _ => ?_
    rw [lcnt_eq hA plus ho.1 ho.2.1 ho.2.2]
    exact Flip.sim_stmR hCF hCF hAF hT.id hT.ok (trp_nm hCF _ _) (trp_nm hCF _ _) (trp_nm hAF _ _) hT.nm
      (at'_ne_row (by have := ho.2.1; omega))

theorem sim_lfac (hA : A.Al b) (hAF : A.id ≠ F.tid) {ops : List Op} (ho : ∀ o ∈ ops, o.inB A.d.nt A.d.mt)
    (hT : ∀ o ∈ ops, TSim F off off' T T' o) :
    F.Sim (ops.flatMap (lfacT K ib off A T)) (ops.flatMap (facT K ib off' A.trp T')) := by
  refine Flip.Sim.flatMap fun o h => ?_
  refine Flip.Sim.append (P := [_]) (P' := [_]) ?_ (sim_lupdR true true hA hAF hAF _ (ho o h) (hT o h))
  have ho := ho o h
  have hT := hT o h
  cases o with
  | ge j k => exact Flip.sim_ge hAF hT.id hT.ok (trp_nm hAF _ _) hT.nm
  | ts j m k =>
    exact Flip.sim_ts hAF hAF hT.id hT.ok (trp_nm hAF _ _) (trp_nm hAF _ _) hT.nm (at'_ne_row (by have := ho.2.1; omega))
  | tt j m k =>
    exact Flip.sim_tt hAF hAF hT.id hT.ok (trp_nm hAF _ _) (trp_nm hAF _ _) hT.nm (at'_ne_row (by have := ho.2.1; omega))

/-! ### Results for the LQ programs -/

/-- `Q` of the LQ factorization: the conjugate transpose of the product of the transformations. -/
noncomputable def lqAll (F : Flip M) (b mm na ib : Nat) (off' : Nat → Nat) (A T' : TMat M) (s : Store (M × Nat × Nat) α)
    (ops : List Op) : Matrix (Fin na) (Fin na) α :=
  (qAll b na mm ib off' A.trp T' (F.tr s) ops)ᴴ

/-- `Q` depends on the reflectors only. -/
theorem lqAll_agree {M' : Type u} {F' : Flip M'} {A1 T1 T1' : TMat M'} {mm na : Nat} (hA : A.Al b) (hA1 : A1.Al b)
    (hAF : A.id ≠ F.tid) (hAF' : A1.id ≠ F'.tid) {mt nt : Nat} {ops : List Op} (ho : ∀ o ∈ ops, o.inB mt nt)
    (hT : ∀ o ∈ ops, TSim F off off' T T' o) (hT' : ∀ o ∈ ops, TSim F' off off' T1 T1' o)
    {s : Store (M × Nat × Nat) α} {s1 : Store (M' × Nat × Nat) α}
    (hE : ∀ r c, r < mm → c < na → A.el s r c = A1.el s1 r c)
    (hTe : ∀ o ∈ ops, ∀ i j, i < ib → j < b → s (lTt off T o) i j = s1 (lTt off T1 o) i j) :
    lqAll F b mm na ib off' A T' s ops = lqAll F' b mm na ib off' A1 T1' s1 ops := by
  unfold lqAll
  refine congrArg _ (qAll_agree (trp_al hA) (trp_al hA1) ho ?_ ?_)
  · intro r c hr hc
    rw [trp_el hAF (F.rel_tr s), trp_el hAF' (F'.rel_tr s1), hE c r hc hr]
  · intro o h i j hi hj
    have e1 := F.rel_T (F.rel_tr s) (hT o h).id (hT o h).ok (hT o h).nm
    have e2 := F'.rel_T (F'.rel_tr s1) (hT' o h).id (hT' o h).ok (hT' o h).nm
    rw [e1, e2]
    exact hTe o h i j hi hj

/-- `Q` in related stores. -/
theorem lqAll_rel {mm na : Nat} (hA : A.Al b) (hAF : A.id ≠ F.tid) {mt nt : Nat} {ops : List Op} (ho : ∀ o ∈ ops, o.inB mt nt)
    (hT : ∀ o ∈ ops, TSim F off off' T T' o) {s s' : Store (M × Nat × Nat) α} (hs : F.rel s s') :
    qAll b na mm ib off' A.trp T' s' ops = (lqAll F b mm na ib off' A T' s ops)ᴴ := by
  unfold lqAll
  rw [conjTranspose_conjTranspose]
  refine qAll_agree (trp_al hA) (trp_al hA) ho ?_ ?_
  · intro r c _ _
    rw [trp_el hAF (F.rel_tr s), trp_el hAF hs]
  · intro o h i j _ _
    rw [F.rel_T (F.rel_tr s) (hT o h).id (hT o h).ok (hT o h).nm, F.rel_T hs (hT o h).id (hT o h).ok (hT o h).nm]

/-- Lower triangle. -/
def tril (X : Nat → Nat → α) (i j : Nat) : α := if j ≤ i then X i j else 0

theorem cT_tril (X : Nat → Nat → α) : cT (tril X) = triu (cT X) := by
  funext i j
  unfold cT tril triu
  split
  · rfl
  · exact star_zero _

/-- **Factorization**: `Q` is unitary and `L Q` is the old matrix, if the `T` tiles of the operations on two triangles are
zero before. -/
theorem lfac_ok (hK : QrSpec K) (hib : 0 < ib) {mm na : Nat} (hA : A.Al b) (hAm : A.d.m = mm) (hAn : A.d.n = na)
    (hAF : A.id ≠ F.tid) {ops : List Op} (ho : OpsOK A.d.nt A.d.mt ops)
    (hnd : (ops.map (opTt off' T')).Nodup) (hTi : T'.id = F.tid) (hT : ∀ o ∈ ops, TSim F off off' T T' o)
    (s : Store (M × Nat × Nat) α)
    (hz : ∀ o ∈ ops, isTT o = true → ∀ i j, i < ib → j < b → s (lTt off T o) i j = 0) :
    lqAll F b mm na ib off' A T' (texec (ops.flatMap (lfacT K ib off A T)) s) ops ∈ unitaryGroup (Fin na) α ∧
    ∀ r c, r < mm → c < na →
      rmul (tril (A.el (texec (ops.flatMap (lfacT K ib off A T)) s)))
        (lqAll F b mm na ib off' A T' (texec (ops.flatMap (lfacT K ib off A T)) s) ops) r c = A.el s r c := by
  have hin := ops_inB ho
  have hs := sim_lfac (K := K) (ib := ib) hA hAF hin hT s _ (F.rel_tr s)
  obtain ⟨h1, h2⟩ := fac_ok hK hib (A := A.trp) (T := T') (off := off') (mm := na) (na := mm) (trp_al hA) hAn hAm
    (by rw [hTi]; exact hAF.symm) ho hnd (F.tr s) (fun o h ht i j hi hj => by
      rw [F.rel_T (F.rel_tr s) (hT o h).id (hT o h).ok (hT o h).nm]
      exact hz o h ht i j hi hj)
  set s1 := texec (ops.flatMap (lfacT K ib off A T)) s
  set s2 := texec (ops.flatMap (facT K ib off' A.trp T')) (F.tr s)
  rw [lqAll_rel hA hAF hin hT hs] at h1 h2
  constructor
  · have := Unitary.star_mem h1
    rwa [star_eq_conjTranspose, conjTranspose_conjTranspose] at this
  · intro r c hr hc
    have h3 := h2 c r hc hr
    have e : A.trp.el s2 = cT (A.el s1) := by funext i j; exact trp_el hAF hs i j
    rw [e, ← cT_tril, trp_el hAF (F.rel_tr s), ← cT_rmul] at h3
    exact star_injective h3

variable {t : Bool} {mm na : Nat}

/-- **Application from the left**. -/
theorem unmlq_left (plus : Bool) (hA : A.Al b) (hC : C.Al b) (hAm : A.d.m = mm) (hAn : A.d.n = na) (hCm : C.d.m = na)
    (hAF : A.id ≠ F.tid) (hCF : C.id ≠ F.tid) (hAC : A.id ≠ C.id) (hTi : T'.id = F.tid) {L : List Op}
    (hL : ∀ o ∈ L, o.inB A.d.nt A.d.mt) (hT : ∀ o ∈ L, TSim F off off' T T' o)
    (s : Store (M × Nat × Nat) α) {r c : Nat} (hr : r < na) (hc : c < C.d.n) :
    C.el (texec ((if t then L.reverse else L).flatMap (lupdL plus t ib off A T C (List.range C.d.nt))) s) r c =
      lmul (qop t (lqAll F b mm na ib off' A T' s L)) (C.el s) r c := by
  have hsim : F.Sim (α := α) ((if t then L.reverse else L).flatMap (lupdL plus t ib off A T C (List.range C.d.nt)))
      ((if t then L.reverse else L).flatMap (updR t ib off' A.trp T' C.trp (List.range C.trp.d.mt))) := by
    refine Flip.Sim.flatMap fun o h => ?_
    have h : o ∈ L := by cases t <;> simpa using h
    exact sim_lupdL plus t hA hAF hCF _ (hL o h) (hT o h)
  have hs := hsim s _ (F.rel_tr s)
  have h1 := unmqr_right (ib := ib) (t := t) (off := off') (trp_al hA) (trp_al hC) (mm := na) (na := mm) hAn hAm hCm (by rw [hTi]; exact hCF.symm) hAC
    hL (F.tr s) hc hr
  rw [trp_el hCF hs, lqAll_rel hA hAF hL hT (F.rel_tr s)] at h1
  have e : C.trp.el (F.tr s) = cT (C.el s) := by funext i j; exact trp_el hCF (F.rel_tr s) i j
  rw [e] at h1
  have e2 : qop t (lqAll F b mm na ib off' A T' s L)ᴴ = (qop t (lqAll F b mm na ib off' A T' s L))ᴴ := by
    cases t <;> rfl
  rw [e2, ← cT_lmul] at h1
  exact star_injective h1

/-- **Application from the right**, when no tile of the reflectors is a tile of `C`. -/
theorem unmlq_right_tiles (plus : Bool) (hA : A.Al b) (hC : C.Al b) (hAm : A.d.m = mm) (hAn : A.d.n = na) (hCn : C.d.n = na)
    (hAF : A.id ≠ F.tid) (hCF : C.id ≠ F.tid) (hTi : T'.id = F.tid) {L : List Op}
    (hL : ∀ o ∈ L, o.inB A.d.nt A.d.mt) (hT : ∀ o ∈ L, TSim F off off' T T' o)
    (hAC : ∀ o ∈ L, ∀ r n, A.at' o.col o.row ≠ C.at' r n)
    (s : Store (M × Nat × Nat) α) {r c : Nat} (hr : r < C.d.m) (hc : c < na) :
    C.el (texec ((if t then L else L.reverse).flatMap (lupdR plus t ib off A T C (List.range C.d.mt))) s) r c =
      rmul (C.el s) (qop t (lqAll F b mm na ib off' A T' s L)) r c := by
  have hsim : F.Sim (α := α) ((if t then L else L.reverse).flatMap (lupdR plus t ib off A T C (List.range C.d.mt)))
      ((if t then L else L.reverse).flatMap (updL t ib off' A.trp T' C.trp (List.range C.trp.d.nt))) := by
    refine Flip.Sim.flatMap fun o h => ?_
    have h : o ∈ L := by cases t <;> simpa using h
    exact sim_lupdR plus t hA hAF hCF _ (hL o h) (hT o h)
  have hs := hsim s _ (F.rel_tr s)
  have h1 := unmqr_left_tiles (ib := ib) (t := t) (off := off') (trp_al hA) (trp_al hC) (mm := na) (na := mm) hAn hAm hCn (by rw [hTi]; exact hCF.symm)
    hL (fun o h r n e => hAC o h n r (by simpa [TMat.at', TMat.trp, and_comm] using e)) (F.tr s) hc hr
  rw [trp_el hCF hs, lqAll_rel hA hAF hL hT (F.rel_tr s)] at h1
  have e : C.trp.el (F.tr s) = cT (C.el s) := by funext i j; exact trp_el hCF (F.rel_tr s) i j
  rw [e] at h1
  have e2 : qop t (lqAll F b mm na ib off' A T' s L)ᴴ = (qop t (lqAll F b mm na ib off' A T' s L))ᴴ := by
    cases t <;> rfl
  rw [e2, ← cT_rmul] at h1
  exact star_injective h1

/-- **Application from the right**. -/
theorem unmlq_right (plus : Bool) (hA : A.Al b) (hC : C.Al b) (hAm : A.d.m = mm) (hAn : A.d.n = na) (hCn : C.d.n = na)
    (hAF : A.id ≠ F.tid) (hCF : C.id ≠ F.tid) (hAC : A.id ≠ C.id) (hTi : T'.id = F.tid) {L : List Op}
    (hL : ∀ o ∈ L, o.inB A.d.nt A.d.mt) (hT : ∀ o ∈ L, TSim F off off' T T' o)
    (s : Store (M × Nat × Nat) α) {r c : Nat} (hr : r < C.d.m) (hc : c < na) :
    C.el (texec ((if t then L else L.reverse).flatMap (lupdR plus t ib off A T C (List.range C.d.mt))) s) r c =
      rmul (C.el s) (qop t (lqAll F b mm na ib off' A T' s L)) r c :=
  unmlq_right_tiles plus hA hC hAm hAn hCn hAF hCF hTi hL hT (fun _ _ _ _ => TMat.at'_ne hAC) s hr hc

/-- **Generation**. -/
theorem unglq_el (plus : Bool) (hA : A.Al b) (hC : C.Al b) (hAm : A.d.m = mm) (hAn : A.d.n = na) (hCn : C.d.n = na)
    (hAF : A.id ≠ F.tid) (hCF : C.id ≠ F.tid) (hAC : A.id ≠ C.id) (hTi : T'.id = F.tid) {ops : List Op}
    (ho : OpsOK A.d.nt A.d.mt ops) (hT : ∀ o ∈ ops, TSim F off off' T T' o)
    (s : Store (M × Nat × Nat) α) (h0 : ∀ r c, r < C.d.m → c < na → C.el s r c = idE r c)
    {r c : Nat} (hr : r < C.d.m) (hc : c < na) :
    C.el (texec (ops.reverse.flatMap fun o => lupdR plus false ib off A T C (span o.col C.d.mt) o) s) r c =
      rmul idE (lqAll F b mm na ib off' A T' s ops) r c := by
  have hin := ops_inB ho
  have hsim : F.Sim (α := α) (ops.reverse.flatMap fun o => lupdR plus false ib off A T C (span o.col C.d.mt) o)
      (ops.reverse.flatMap fun o => updL false ib off' A.trp T' C.trp (span o.col C.trp.d.nt) o) := by
    refine Flip.Sim.flatMap fun o h => ?_
    have h : o ∈ ops := List.mem_reverse.mp h
    exact sim_lupdR plus false hA hAF hCF _ (hin o h) (hT o h)
  have hs := hsim s _ (F.rel_tr s)
  have hid : (cT idE : Nat → Nat → α) = idE := by
    funext i j
    unfold cT idE
    by_cases e : i = j
    · rw [if_pos e, if_pos e.symm, star_one]
    · rw [if_neg e, if_neg (fun h => e h.symm), star_zero]
  have h1 := ungqr_el (ib := ib) (off := off') (T := T') (trp_al hA) (trp_al hC) (mm := na) (na := mm) hAn hAm hCn
    (by rw [hTi]; exact hCF.symm) hAC rowInv_init ho.legal (fun o h => lt_of_lt_of_le (ho.col o h) (Nat.min_le_right ..))
    (fun r c _ => by simp [init]) (F.tr s)
    (fun r c hr hc => by
      rw [trp_el hCF (F.rel_tr s), h0 c r hc hr]
      exact congrFun (congrFun hid r) c) hc hr
  rw [trp_el hCF hs, lqAll_rel hA hAF hin hT (F.rel_tr s), ← hid, ← cT_rmul] at h1
  exact star_injective h1

end

end Verif.Qr

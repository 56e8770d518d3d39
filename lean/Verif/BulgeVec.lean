/-
The reflectors that the bulge chasing leaves in `VQ`, `TAUQ`, `VP`, `TAUP` when vectors are wanted are the factors of its transformation.
-/
import Verif.BulgeFold

namespace Verif.Bulge

open Verif.Sched Verif.Tile Verif.Fact Verif.Qr Finset Matrix

set_option linter.unusedSectionVars false

universe v

section
variable {𝕜 : Type v} [RCLike 𝕜] {n nb h s q : Nat} {S X Y : Store CM 𝕜}

/-- Reflector `q` of sweep `s` (counted from one), as stored in `V` and `T`. -/
def reflAt (V T : CM) (n nb : Nat) (X : Store CM 𝕜) (s q : Nat) : Matrix (Fin n) (Fin n) 𝕜 :=
  Qr.refl n (vecAt V s (s + q * nb) nb X) (X T s (s + q * nb))

/-- Product of the first `k` reflectors of sweep `s`. -/
def prodAt (V T : CM) (n nb : Nat) (X : Store CM 𝕜) (s k : Nat) : Matrix (Fin n) (Fin n) 𝕜 :=
  ((List.range k).map (reflAt V T n nb X s)).prod

theorem prodAt_succ {V T : CM} {k : Nat} : prodAt V T n nb X s (k + 1) = prodAt V T n nb X s k * reflAt V T n nb X s k := by
  unfold prodAt
  rw [List.range_succ, List.map_append, List.prod_append, List.map_cons, List.map_nil, List.prod_singleton]

theorem reflAt_congr {V T : CM} (hV : ∀ j, s + q * nb ≤ j → j < s + q * nb + nb → X V s j = Y V s j)
    (hT : X T s (s + q * nb) = Y T s (s + q * nb)) : reflAt V T n nb X s q = reflAt V T n nb Y s q := by
  unfold reflAt
  rw [hT]
  congr 1
  funext r
  unfold vecAt
  split
  · rename_i hr
    exact hV r hr.1 hr.2
  · rfl

theorem prodAt_congr {V T : CM} {k : Nat} (h : ∀ q, q < k → reflAt V T n nb X s q = reflAt V T n nb Y s q) :
    prodAt V T n nb X s k = prodAt V T n nb Y s k := by
  unfold prodAt
  congr 1
  exact List.map_congr_left fun q hq => h q (List.mem_range.mp hq)

theorem reflAt_len {V T : CM} {l : Nat} (hl : l = min nb (n - (s + q * nb))) :
    Qr.refl n (vecAt V s (s + q * nb) l X) (X T s (s + q * nb)) = reflAt V T n nb X s q := by
  ext ⟨r, hr⟩ ⟨c, hc⟩
  have e : ∀ r, r < n → vecAt V s (s + q * nb) l X r = vecAt V s (s + q * nb) nb X r := by
    intro r hr
    unfold vecAt
    by_cases h : s + q * nb ≤ r ∧ r < s + q * nb + nb
    · rw [if_pos h, if_pos (by omega)]
    · rw [if_neg h, if_neg (by omega)]
  unfold reflAt Qr.refl
  simp only [Matrix.sub_apply, Matrix.of_apply]
  rw [e r hr, e c hc]

/-! ### What a transformation leaves alone -/

theorem Lst_p {c c0 l m h' j : Nat} : Lst h c c0 l m X .p h' j = X .p h' j := by
  simp [Lst, appL, genCol]

theorem Rst_q {r c0 l m h' j : Nat} : Rst h r c0 l m X .q h' j = X .q h' j := by
  simp [Rst, appR, genRow]

theorem Rst_tq {r c0 l m h' j : Nat} : Rst h r c0 l m X .tq h' j = X .tq h' j := by
  simp [Rst, appR, genRow]

theorem Rst_p {r c0 l m h' j : Nat} (hl : 0 < l) (hj : h' = h → ¬ (c0 ≤ j ∧ j < c0 + l)) : Rst h r c0 l m X .p h' j = X .p h' j := by
  unfold Rst appR genRow
  rw [if_neg (by simp)]
  simp only [reduceCtorEq, if_false, if_true]
  rw [if_neg (by rintro ⟨rfl, rfl⟩; exact hj rfl ⟨by omega, by omega⟩), if_neg (by rintro ⟨rfl, h1, h2⟩; exact hj rfl ⟨by omega, by omega⟩)]

theorem Rst_tp' {r c0 l m h' j : Nat} (hj : h' = h → j ≠ c0) : Rst h r c0 l m X .tp h' j = X .tp h' j := by
  unfold Rst appR genRow
  rw [if_neg (by simp)]
  simp only [reduceCtorEq, if_false, if_true]
  rw [if_neg (by rintro ⟨rfl, rfl⟩; exact hj rfl rfl)]

theorem Rst_one {r c0 l m : Nat} : Rst h r c0 l m X .p h c0 = 1 := by
  unfold Rst appR genRow
  rw [if_neg (by simp)]
  simp

theorem Lst_q {c c0 l m h' j : Nat} (hl : 0 < l) (hj : h' = h → ¬ (c0 ≤ j ∧ j < c0 + l)) : Lst h c c0 l m X .q h' j = X .q h' j := by
  rw [Lst_flip]
  show Rst h c c0 l m (flip X) .p h' j = _
  rw [Rst_p hl hj]
  rfl

theorem Lst_tq' {c c0 l m h' j : Nat} (hj : h' = h → j ≠ c0) : Lst h c c0 l m X .tq h' j = X .tq h' j := by
  rw [Lst_flip]
  show Rst h c c0 l m (flip X) .tp h' j = _
  rw [Rst_tp' hj]
  rfl

theorem Lst_one {c c0 l m : Nat} : Lst h c c0 l m X .q h c0 = 1 := by
  rw [Lst_flip]
  exact Rst_one

/-- What is known inside sweep `s`: `S` is the state before the sweep, `X` the present one, after `k` transformations from the left and `k'` from
the right. -/
structure Trk (n nb : Nat) (S X : Store CM 𝕜) (s k k' : Nat) : Prop where
  fac : mat n n (S .a) = prodAt .q .tq n nb X s k * mat n n (X .a) * (prodAt .p .tp n nb X s k')ᴴ
  uq : prodAt .q .tq n nb X s k ∈ unitaryGroup (Fin n) 𝕜
  up : prodAt .p .tp n nb X s k' ∈ unitaryGroup (Fin n) 𝕜
  old : ∀ x, x ≠ CM.a → ∀ s' j, s' ≠ s → X x s' j = S x s' j
  oneq : ∀ q, q < k → X .q s (s + q * nb) = 1
  onep : ∀ q, q < k' → X .p s (s + q * nb) = 1

theorem Trk.start : Trk n nb S S s 0 0 where
  fac := by simp [prodAt]
  uq := by simp [prodAt]
  up := by simp [prodAt]
  old := fun _ _ _ _ _ => rfl
  oneq := fun q hq => by omega
  onep := fun q hq => by omega

theorem apart {q k : Nat} (hq : q < k) : s + q * nb + nb ≤ s + k * nb := by
  have : (q + 1) * nb ≤ k * nb := Nat.mul_le_mul_right _ hq
  rw [Nat.add_mul] at this
  omega

theorem Trk.left {k k' m : Nat} (hT : Trk n nb S X s k k') (hnb : 0 < nb) (hD : s + k * nb < n) {l : Nat} (hl : l = min nb (n - (s + k * nb)))
    (hz : ∀ i j, j < n → ¬ (s + k * nb ≤ j ∧ j ≤ s + k * nb + m) → s + k * nb ≤ i → i < s + k * nb + l → X .a i j = 0) :
    Trk n nb S (Lst s (s + k * nb) (s + k * nb) l m X) s (k + 1) k' := by
  have hl0 : 0 < l := by omega
  obtain ⟨h1, h2⟩ := Lst_mat (h := s) hl0 (by omega) hz
  rw [reflAt_len hl] at h1 h2
  set Z := Lst s (s + k * nb) (s + k * nb) l m X with hZ
  have eq0 : prodAt .q .tq n nb Z s k = prodAt .q .tq n nb X s k := by
    refine prodAt_congr fun q hq => reflAt_congr (fun j hj1 hj2 => ?_) ?_
    · have := apart (s := s) (nb := nb) hq
      exact Lst_q hl0 fun _ => by omega
    · have := apart (s := s) (nb := nb) hq
      exact Lst_tq' fun _ => by omega
  have ep : prodAt .p .tp n nb Z s k' = prodAt .p .tp n nb X s k' :=
    prodAt_congr fun q _ => reflAt_congr (fun j _ _ => Lst_p) Lst_tp
  refine ⟨?_, ?_, ?_, ?_, ?_, ?_⟩
  · have e : reflAt .q .tq n nb Z s k * (reflAt .q .tq n nb Z s k)ᴴ = 1 := mem_unitaryGroup_iff.mp h1
    rw [prodAt_succ, eq0, ep, h2, Matrix.mul_assoc (prodAt .q .tq n nb X s k), ← Matrix.mul_assoc (reflAt .q .tq n nb Z s k), e, Matrix.one_mul]
    exact hT.fac
  · rw [prodAt_succ, eq0]
    exact mul_mem hT.uq h1
  · rw [ep]; exact hT.up
  · intro x hx s' j hs'
    rw [← hT.old x hx s' j hs']
    cases x with
    | a => exact absurd rfl hx
    | q => exact Lst_q hl0 fun e => absurd e hs'
    | p => exact Lst_p
    | tq => exact Lst_tq' fun e => absurd e hs'
    | tp => exact Lst_tp
    | dep => simp [hZ, Lst, appL, genCol]
  · intro q hq
    rcases Nat.lt_or_ge q k with h | h
    · have := apart (s := s) (nb := nb) h
      rw [hZ, Lst_q hl0 fun _ => by omega]
      exact hT.oneq q h
    · obtain rfl : q = k := by omega
      exact Lst_one
  · intro q hq
    rw [hZ, Lst_p]
    exact hT.onep q hq

theorem Trk.right {k k' r m : Nat} (hT : Trk n nb S X s k k') (hnb : 0 < nb) (hD : s + k' * nb < n) {l : Nat} (hl : l = min nb (n - (s + k' * nb)))
    (hz : ∀ i j, i < n → ¬ (r ≤ i ∧ i ≤ r + m) → s + k' * nb ≤ j → j < s + k' * nb + l → X .a i j = 0) :
    Trk n nb S (Rst s r (s + k' * nb) l m X) s k (k' + 1) := by
  have hl0 : 0 < l := by omega
  obtain ⟨h1, h2⟩ := Rst_mat (h := s) hl0 (by omega) hz
  rw [reflAt_len hl] at h1 h2
  set Z := Rst s r (s + k' * nb) l m X with hZ
  have ep : prodAt .p .tp n nb Z s k' = prodAt .p .tp n nb X s k' := by
    refine prodAt_congr fun q hq => reflAt_congr (fun j hj1 hj2 => ?_) ?_
    · have := apart (s := s) (nb := nb) hq
      exact Rst_p hl0 fun _ => by omega
    · have := apart (s := s) (nb := nb) hq
      exact Rst_tp' fun _ => by omega
  have eq0 : prodAt .q .tq n nb Z s k = prodAt .q .tq n nb X s k :=
    prodAt_congr fun q _ => reflAt_congr (fun j _ _ => Rst_q) Rst_tq
  refine ⟨?_, ?_, ?_, ?_, ?_, ?_⟩
  · have e : reflAt .p .tp n nb Z s k' * (reflAt .p .tp n nb Z s k')ᴴ = 1 := mem_unitaryGroup_iff.mp h1
    rw [prodAt_succ, eq0, ep, h2, Matrix.conjTranspose_mul, hT.fac]
    simp only [Matrix.mul_assoc]
    rw [← Matrix.mul_assoc (reflAt .p .tp n nb Z s k') (reflAt .p .tp n nb Z s k')ᴴ, e, Matrix.one_mul]
  · rw [eq0]; exact hT.uq
  · rw [prodAt_succ, ep]
    exact mul_mem hT.up h1
  · intro x hx s' j hs'
    rw [← hT.old x hx s' j hs']
    cases x with
    | a => exact absurd rfl hx
    | q => exact Rst_q
    | p => exact Rst_p hl0 fun e => absurd e hs'
    | tq => exact Rst_tq
    | tp => exact Rst_tp' fun e => absurd e hs'
    | dep => simp [hZ, Rst, appR, genRow]
  · intro q hq
    rw [hZ, Rst_q]
    exact hT.oneq q hq
  · intro q hq
    rcases Nat.lt_or_ge q k' with h | h
    · have := apart (s := s) (nb := nb) h
      rw [hZ, Rst_p hl0 fun _ => by omega]
      exact hT.onep q h
    · obtain rfl : q = k' := by omega
      exact Rst_one

/-- Inside a sweep. -/
theorem Tq_trk (hnb : 2 ≤ nb) (hs : 1 ≤ s) (hsn : s < n) (hz : Zout n (Pat nb (s - 1)) S) :
    ∀ q, (0 < q → s + (q - 1) * nb + nb + 1 < n) → Trk n nb S (Tq n nb s s q S) s q (q + 1)
  | 0, _ => by
    obtain ⟨h1, -⟩ := first_step (h := s) (by omega : 0 < nb) hs hsn hz
    have := (Trk.start (n := n) (nb := nb) (S := S) (s := s)).right (r := s - 1) (m := min (s + nb - 1) (n - 1) + 1 - s) (by omega) (by omega)
      (l := min (s + nb - 1) (n - 1) + 1 - s) (by omega) (by rw [Nat.zero_mul, Nat.add_zero]; exact h1)
    rw [Nat.zero_mul, Nat.add_zero] at this
    exact this
  | q + 1, hq => by
    have hq := hq (by omega)
    rw [Nat.add_sub_cancel] at hq
    have hq' : 0 < q → s + (q - 1) * nb + nb + 1 < n := fun h0 => by
      have : (q - 1) * nb + nb = q * nb := by rw [← Nat.succ_mul]; congr 1; omega
      omega
    have hT := Tq_trk hnb hs hsn hz q hq'
    obtain ⟨-, h2⟩ := Tq_spec (h := s) (by omega : 0 < nb) hs hsn hz q hq'
    obtain ⟨h3, h4⟩ := left_step (h := s) (D := s + q * nb) (l := min nb (n - (s + q * nb)))
      (m := min (s + q * nb + 2 * nb - 1) (n - 1) - (s + q * nb)) (by omega) (by omega) rfl (by omega) h2
    obtain ⟨h5, -⟩ := right_step (h := s) (l := min (s + q * nb + 2 * nb) n - (s + q * nb + nb))
        (m := min (s + q * nb + 2 * nb - 1) (n - 1) - (s + q * nb)) hs hnb hq (by omega) (by omega) h4
    have hL := hT.left (by omega) (by omega) rfl h3
    unfold Tq
    simp only [if_pos hnb]
    have eD : s + (q + 1) * nb = s + q * nb + nb := by rw [Nat.add_mul]; omega
    have := hL.right (r := s + q * nb) (m := min (s + q * nb + 2 * nb - 1) (n - 1) - (s + q * nb)) (by omega) (by omega)
      (l := min (s + q * nb + 2 * nb) n - (s + q * nb + nb)) (by omega) (by rw [eD]; exact h5)
    rw [eD] at this
    exact this

/-- A whole sweep. -/
theorem Sw_trk (hnb : 2 ≤ nb) (hs : 1 ≤ s) (hsn : s < n) (hz : Zout n (Pat nb (s - 1)) S)
    (h0 : 0 < q → s + (q - 1) * nb + nb + 1 < n) (hDn : s + q * nb < n) : Trk n nb S (Sw n nb s s q S) s (q + 1) (q + 1) := by
  obtain ⟨-, h2⟩ := Tq_spec (h := s) (by omega : 0 < nb) hs hsn hz q h0
  obtain ⟨h3, -⟩ := left_step (h := s) (D := s + q * nb) (l := min nb (n - (s + q * nb)))
      (m := min (s + q * nb + 2 * nb - 1) (n - 1) - (s + q * nb)) (by omega) hDn rfl (by omega) h2
  exact (Tq_trk hnb hs hsn hz q h0).left (by omega) hDn rfl h3

/-- Number of reflectors of a sweep. -/
def cnt (n nb s : Nat) : Nat := (len n nb s + 1) / 2

/-- Product of the reflectors of the first `k` sweeps. -/
def allAt (V T : CM) (n nb : Nat) (X : Store CM 𝕜) (k : Nat) : Matrix (Fin n) (Fin n) 𝕜 :=
  ((List.range k).map fun t => prodAt V T n nb X (t + 1) (cnt n nb (t + 1))).prod

theorem allAt_succ {V T : CM} {k : Nat} : allAt V T n nb X (k + 1) = allAt V T n nb X k * prodAt V T n nb X (k + 1) (cnt n nb (k + 1)) := by
  unfold allAt
  rw [List.range_succ, List.map_append, List.prod_append, List.map_cons, List.map_nil, List.prod_singleton]

/-- What the bulge chasing with vectors leaves behind. -/
structure Facs (n nb : Nat) (S X : Store CM 𝕜) (k : Nat) : Prop where
  fac : mat n n (S .a) = allAt .q .tq n nb X k * mat n n (X .a) * (allAt .p .tp n nb X k)ᴴ
  uq : allAt .q .tq n nb X k ∈ unitaryGroup (Fin n) 𝕜
  up : allAt .p .tp n nb X k ∈ unitaryGroup (Fin n) 𝕜
  oneq : ∀ s q, 1 ≤ s → s ≤ k → q < cnt n nb s → X .q s (s + q * nb) = 1
  onep : ∀ s q, 1 ≤ s → s ≤ k → q < cnt n nb s → X .p s (s + q * nb) = 1

theorem Facs.next {k : Nat} (h : Facs n nb S X k) (g : Trk n nb X Y (k + 1) (cnt n nb (k + 1)) (cnt n nb (k + 1))) : Facs n nb S Y (k + 1) := by
  have hold : ∀ V T : CM, V ≠ .a → T ≠ .a → allAt V T n nb Y k = allAt V T n nb X k := by
    intro V T hV hT
    unfold allAt
    congr 1
    refine List.map_congr_left fun t ht => ?_
    have ht := List.mem_range.mp ht
    exact prodAt_congr fun q _ => reflAt_congr (fun j _ _ => g.old V hV _ _ (by omega)) (g.old T hT _ _ (by omega))
  have eq0 := hold .q .tq (by simp) (by simp)
  have ep := hold .p .tp (by simp) (by simp)
  refine ⟨?_, ?_, ?_, fun s q h1 h2 h3 => ?_, fun s q h1 h2 h3 => ?_⟩
  · rw [allAt_succ, allAt_succ, eq0, ep, h.fac, g.fac, Matrix.conjTranspose_mul]
    simp only [Matrix.mul_assoc]
  · rw [allAt_succ, eq0]
    exact mul_mem h.uq g.uq
  · rw [allAt_succ, ep]
    exact mul_mem h.up g.up
  · rcases Nat.lt_or_ge k s with hk | hk
    · obtain rfl : s = k + 1 := by omega
      exact g.oneq q h3
    · rw [g.old .q (by simp) _ _ (by omega)]
      exact h.oneq s q h1 hk h3
  · rcases Nat.lt_or_ge k s with hk | hk
    · obtain rfl : s = k + 1 := by omega
      exact g.onep q h3
    · rw [g.old .p (by simp) _ _ (by omega)]
      exact h.onep s q h1 hk h3

/-- **All sweeps with vectors, upper case**: the stored reflectors are the factors. -/
theorem vec_upper (hn : 2 ≤ n) (hnb : 2 ≤ nb) (hz : ∀ r c, r < n → c < n → ¬ (r ≤ c ∧ c ≤ r + nb) → S .a r c = 0) :
    Facs n nb S (chaseSeq id true n nb S) (n - 1) := by
  rw [chaseSeq_eq]
  have key : ∀ k, k ≤ n - 1 →
      Facs n nb S ((List.range' 1 k).foldl (fun S s => foldB id true n nb s (len n nb s) S) S) k ∧
      Zout n (Pat nb k) ((List.range' 1 k).foldl (fun S s => foldB id true n nb s (len n nb s) S) S) ∧
      RealTo k ((List.range' 1 k).foldl (fun S s => foldB id true n nb s (len n nb s) S) S) := by
    intro k
    induction k with
    | zero =>
      intro _
      refine ⟨⟨by simp [allAt], by simp [allAt], by simp [allAt], fun s q h1 h2 => by omega, fun s q h1 h2 => by omega⟩,
        fun r c hr hc hp => hz r c hr hc fun hb => hp (pat_band (by omega) hb), fun r h1 h2 => by omega⟩
    | succ k ih =>
      intro hk
      obtain ⟨h1, h2, h3⟩ := ih (by omega)
      rw [List.range'_concat, List.foldl_append, Nat.one_mul, Nat.add_comm 1 k]
      simp only [List.foldl_cons, List.foldl_nil]
      generalize (List.range' 1 k).foldl (fun S s => foldB id true n nb s (len n nb s) S) S = X at *
      obtain ⟨q, g0, g1, g2, g3, g4⟩ := foldB_sw (sel := id) (S := X) hn (by omega : 0 < nb) (show 1 ≤ k + 1 by omega) (by omega)
        (fun e => by omega)
      rw [g3]
      obtain ⟨-, e2, e3, -⟩ := Sw_spec (h := id (k + 1)) (by omega : 0 < nb) (show 1 ≤ k + 1 by omega) (by omega) h2 h3 g0 g1 g2
      refine ⟨h1.next ?_, e2, e3⟩
      have := Sw_trk hnb (show 1 ≤ k + 1 by omega) (by omega) h2 g0 g1
      unfold cnt
      rw [g4]
      exact this
  exact (key (n - 1) le_rfl).1

theorem allAt_flip {V T V' T' : CM} {k : Nat} (hV : ∀ i j, flip X V i j = X V' i j) (hT : ∀ i j, flip X T i j = X T' i j) :
    allAt V T n nb (flip X) k = allAt V' T' n nb X k := by
  unfold allAt prodAt reflAt vecAt
  simp only [hV, hT]

/-- **All sweeps with vectors, lower case.** -/
theorem vec_lower (hn : 2 ≤ n) (hnb : 2 ≤ nb) (hz : ∀ r c, r < n → c < n → ¬ (c ≤ r ∧ r ≤ c + nb) → S .a r c = 0) :
    Facs n nb S (chaseSeq id false n nb S) (n - 1) := by
  obtain ⟨T, rfl⟩ : ∃ T, S = flip T := ⟨flip S, flip_flip.symm⟩
  rw [chaseSeq_flip]
  have h := vec_upper (S := T) hn hnb (by
    intro r c hr hc hp
    have := hz c r hc hr hp
    exact star_eq_zero.mp this)
  have eq0 : allAt .q .tq n nb (flip (chaseSeq id true n nb T)) (n - 1) = allAt .p .tp n nb (chaseSeq id true n nb T) (n - 1) :=
    allAt_flip (fun _ _ => rfl) fun _ _ => rfl
  have ep : allAt .p .tp n nb (flip (chaseSeq id true n nb T)) (n - 1) = allAt .q .tq n nb (chaseSeq id true n nb T) (n - 1) :=
    allAt_flip (fun _ _ => rfl) fun _ _ => rfl
  refine ⟨?_, by rw [eq0]; exact h.up, by rw [ep]; exact h.uq, h.onep, h.oneq⟩
  rw [flip_mat, flip_mat, eq0, ep, h.fac]
  simp only [Matrix.conjTranspose_mul, Matrix.conjTranspose_conjTranspose, Matrix.mul_assoc]

end

end Verif.Bulge

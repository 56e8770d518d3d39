/-
The bulge chasing with vectors over real memory: the places that `findVTpos` gives, and what every execution of the threads computes.
-/
import Verif.BulgeExec
import Verif.BulgeVec
import Verif.Props.Blgtrd

namespace Verif.Bulge

open Verif.Sched Verif.Tile Verif.Props Verif.Qr Matrix

universe v

/-- Place of element `j` of sweep `h` (counted from one) in `VQ` or `VP`: the kernels call `findVTpos` with the sweep, counted from zero, and the first row of
the reflector, and add the distance from that row (core_blas/core_zgbtype1cb.c:138-141, core_blas/core_zgbtype2cb.c:154-155, 168, include/bulge.h:38-63). -/
def vplace (n nb V h j : Nat) : Nat := Blg.vpos n nb V (h - 1) (Blg.rst nb (h - 1) ((j - h) / nb)) + (j - h) % nb

/-- Addresses of the arrays when vectors are wanted, `wantz = 2`: the band array as before, the arrays of the reflectors as `findVTpos` says
(compute/pzgbbrd_static.c:44-45, core_blas/core_zgbtype1cb.c:135-141). -/
def chaseLocV (up : Bool) (n nb V : Nat) (x : CM) (i j : Nat) : CM × Nat :=
  match x with
  | .a => (.a, bandAddr up nb i j)
  | .q => (.q, vplace n nb V i j)
  | .p => (.p, vplace n nb V i j)
  | .tq => (.tq, Blg.taupos n nb V (i - 1) j)
  | .tp => (.tp, Blg.taupos n nb V (i - 1) j)
  | x => (x, 0)

/-- Elements of reflectors. -/
def ofRefl (n nb h j : Nat) : Prop := 1 ≤ h ∧ h ≤ j ∧ j < n ∧ Blg.IsRefl n nb (h - 1) ((j - h) / nb)

/-- Elements that have a place of their own. -/
def chaseValidV (up : Bool) (n nb : Nat) : Foot CM := fun x i j => match x with
  | .a => i < n ∧ j < n ∧ if up then j ≤ i + 2 * nb ∧ i ≤ j + nb else i ≤ j + 2 * nb ∧ j ≤ i + nb
  | .dep _ _ => False
  | .q => ofRefl n nb i j
  | .p => ofRefl n nb i j
  | .tq => ofRefl n nb i j ∧ (j - i) % nb = 0
  | .tp => ofRefl n nb i j ∧ (j - i) % nb = 0

section
variable {up : Bool} {n nb V ac : Nat} {b : Blk}

theorem vplace_inj (hnb : 0 < nb) (hV : 0 < V) {h j h' j' : Nat} (g : ofRefl n nb h j) (g' : ofRefl n nb h' j')
    (e : vplace n nb V h j = vplace n nb V h' j') : h = h' ∧ j = j' := by
  obtain ⟨g1, g2, g3, g4⟩ := g
  obtain ⟨k1, k2, k3, k4⟩ := g'
  obtain ⟨e1, e2, e3⟩ := (C87_storage hnb hV g4).2.2.1 _ _ _ _ k4 (Nat.mod_lt _ hnb) (Nat.mod_lt _ hnb) e
  obtain rfl : h = h' := by omega
  have d1 := Nat.div_add_mod (j - h) nb
  have d2 := Nat.div_add_mod (j' - h) nb
  rw [e2, e3] at d1
  exact ⟨rfl, by omega⟩

theorem rst_eq {h j : Nat} (h1 : 1 ≤ h) (h2 : h ≤ j) (h3 : (j - h) % nb = 0) : Blg.rst nb (h - 1) ((j - h) / nb) = j := by
  have d1 := Nat.div_add_mod (j - h) nb
  unfold Blg.rst
  rw [Nat.mul_comm] at d1
  omega

theorem tplace_inj (hnb : 0 < nb) (hV : 0 < V) {h j h' j' : Nat} (g : ofRefl n nb h j ∧ (j - h) % nb = 0)
    (g' : ofRefl n nb h' j' ∧ (j' - h') % nb = 0) (e : Blg.taupos n nb V (h - 1) j = Blg.taupos n nb V (h' - 1) j') : h = h' ∧ j = j' := by
  obtain ⟨⟨g1, g2, g3, g4⟩, g5⟩ := g
  obtain ⟨⟨k1, k2, k3, k4⟩, k5⟩ := g'
  have r1 := rst_eq g1 g2 g5
  have r2 := rst_eq k1 k2 k5
  rw [← r1, ← r2] at e
  obtain ⟨e1, e2⟩ := (C87_storage hnb hV g4).2.2.2 _ _ k4 e
  obtain rfl : h = h' := by omega
  rw [e2, r2] at r1
  exact ⟨rfl, r1.symm⟩

theorem chaseV_inj (hnb : 0 < nb) (hV : 0 < V) : InjOn (chaseLocV up n nb V) (chaseValidV up n nb) := by
  intro x i j x' i' j' h h' e
  have ex : x = x' := by
    cases x <;> cases x' <;> first | rfl | exact h.elim | (exact absurd (congrArg Prod.fst e) (by simp [chaseLocV]))
  subst ex
  refine ⟨rfl, ?_⟩
  cases x with
  | a => exact (chase_inj (up := up) (n := n) (nb := nb) .a i j .a i' j' h h' e).2
  | dep => exact h.elim
  | q => exact vplace_inj hnb hV h h' (congrArg Prod.snd e)
  | p => exact vplace_inj hnb hV h h' (congrArg Prod.snd e)
  | tq => exact tplace_inj hnb hV h h' (congrArg Prod.snd e)
  | tp => exact tplace_inj hnb hV h h' (congrArg Prod.snd e)

/-- Number of elements of the arrays (compute/zgesdd.c:457, 503-509, 535-541). -/
def sizeV (n nb V : Nat) : CM → Nat
  | .a => (3 * nb + 1) * n
  | .q => Blg.ldv nb V * Blg.blkcnt n nb V * V
  | .p => Blg.ldv nb V * Blg.blkcnt n nb V * V
  | .tq => Blg.blkcnt n nb V * V
  | .tp => Blg.blkcnt n nb V * V
  | _ => 0

/-- All addresses are inside the arrays. -/
theorem chaseV_bound (hnb : 0 < nb) (hV : 0 < V) {x : CM} {i j : Nat} (h : chaseValidV up n nb x i j) : (chaseLocV up n nb V x i j).2 < sizeV n nb V x := by
  have hv : ∀ {i j}, ofRefl n nb i j → vplace n nb V i j < Blg.ldv nb V * Blg.blkcnt n nb V * V := fun g =>
    (C87_storage hnb hV g.2.2.2).1 _ (Nat.mod_lt _ hnb)
  have ht : ∀ {i j}, ofRefl n nb i j ∧ (j - i) % nb = 0 → Blg.taupos n nb V (i - 1) j < Blg.blkcnt n nb V * V := by
    intro i j g
    have := (C87_storage (V := V) hnb hV g.1.2.2.2).2.1
    rwa [rst_eq g.1.1 g.1.2.1 g.2] at this
  cases x with
  | a =>
    have := chase_bound (up := up) (n := n) (nb := nb) (x := .a) h
    rwa [if_pos rfl] at this
  | dep => exact h.elim
  | q => exact hv h
  | p => exact hv h
  | tq => exact ht h
  | tp => exact ht h

theorem div_block {s q j : Nat} (hj : s + q * nb ≤ j) (hj' : j < s + q * nb + nb) : (j - s) / nb = q ∧ (j - s) % nb = j - (s + q * nb) := by
  have h0 : 0 < nb := by omega
  have e : j - s = (j - (s + q * nb)) + nb * q := by have := Nat.mul_comm nb q; omega
  rw [e, Nat.add_mul_div_left _ _ h0, Nat.div_eq_of_lt (by omega), Nat.add_mul_mod_self_left, Nat.mod_eq_of_lt (by omega)]
  omega

theorem footV_valid (hn : 2 ≤ n) (hnb : 0 < nb) (hb : IsBlk n nb b) {x : CM} {i j : Nat} (h : foot id up n nb b x i j) :
    chaseValidV up n nb x i j := by
  have hbst : b.2 ≤ bst nb b := by unfold bst; omega
  have h2 := bed_lt (nb := nb) (b := b) hn
  have h3 : bj2 n nb b < n := by unfold bj2; omega
  have h4 : bj2 n nb b ≤ bed n nb b + nb := min_le_left _ _
  have h5 : bed n nb b ≤ bst nb b + nb - 1 := min_le_left _ _
  have hr : ∀ j, bst nb b ≤ j → j ≤ bed n nb b → ofRefl n nb b.2 j ∧ (j - b.2) % nb = j - bst nb b := by
    intro j h6 h7
    obtain ⟨d1, d2⟩ := div_block (nb := nb) (s := b.2) (q := (b.1 - 1) / 2) (j := j) (by unfold bst at h6; exact h6) (by unfold bst at h5; omega)
    refine ⟨⟨hb.1, by omega, by omega, ?_⟩, d2⟩
    rw [d1, Blg.isRefl_iff hn hnb]
    have k := hb.2.2.1
    have k' := hb.2.2.2
    have e : b.2 - 1 + 1 = b.2 := by have := hb.1; omega
    rw [e]
    exact ⟨hb.1, hb.2.1, by simp, le_trans (show 2 * ((b.1 - 1) / 2) + 1 ≤ b.1 by omega) k'⟩
  have hr' : ∀ j, bed n nb b < j → j ≤ bj2 n nb b → bed n nb b + 1 < bj2 n nb b → ofRefl n nb b.2 j ∧ (j - b.2) % nb = j - (bed n nb b + 1) := by
    intro j h6 h7 h8
    have h9 : bed n nb b = bst nb b + nb - 1 := by
      unfold bed at h8 ⊢
      omega
    have h10 : bst nb b = b.2 + (b.1 - 1) / 2 * nb := rfl
    obtain ⟨d1, d2⟩ := div_block (nb := nb) (s := b.2) (q := (b.1 - 1) / 2 + 1) (j := j) (by rw [Nat.add_mul]; omega) (by rw [Nat.add_mul]; omega)
    refine ⟨⟨hb.1, by omega, by omega, ?_⟩, by rw [d2, Nat.add_mul]; omega⟩
    rw [d1]
    have := hb.1
    refine ⟨by have := hb.2.1; omega, Or.inr ?_⟩
    rw [Nat.add_mul]
    omega
  have hA : ∀ r c, footA n nb b r c → r < n ∧ c < n ∧ c ≤ r + 2 * nb ∧ r ≤ c + nb := by
    intro r c h
    have h1 := bst_pos hb
    unfold footA at h
    split at h <;> omega
  have hQ : ∀ h j, footQ id n nb b h j → ofRefl n nb h j := by
    rintro h j ⟨rfl, k1, k2⟩
    exact (hr j k1 k2).1
  have hP : ∀ h j, footP id n nb b h j → ofRefl n nb h j := by
    rintro h j ⟨rfl, k⟩
    split at k
    · exact (hr' j k.1 k.2.1 k.2.2).1
    · exact (hr j k.1 k.2).1
  have hTQ : ∀ h j, footTQ id nb b h j → ofRefl n nb h j ∧ (j - h) % nb = 0 := by
    intro h j k
    have k2 := footTQ_sub hn hnb hb k
    obtain ⟨rfl, rfl⟩ := k
    obtain ⟨l1, l2⟩ := hr _ k2.2.1 k2.2.2
    exact ⟨l1, by rw [id, l2]; omega⟩
  have hTP : ∀ h j, footTP id n nb b h j → ofRefl n nb h j ∧ (j - h) % nb = 0 := by
    intro h j k
    have k2 := footTP_sub hn hnb hb k
    obtain ⟨rfl, k⟩ := k
    obtain ⟨-, k2⟩ := k2
    split at k
    · rename_i hp
      rw [if_pos hp] at k2
      obtain ⟨l1, l2⟩ := hr' j k2.1 k2.2.1 k2.2.2
      exact ⟨l1, by rw [id, l2]; omega⟩
    · rename_i hp
      rw [if_neg hp] at k2
      obtain ⟨l1, l2⟩ := hr j k2.1 k2.2
      exact ⟨l1, by rw [id, l2]; omega⟩
  cases x with
  | dep => exact h.elim
  | a =>
    cases up
    · obtain ⟨k1, k2, k3, k4⟩ := hA j i h
      exact ⟨k2, k1, k3, k4⟩
    · obtain ⟨k1, k2, k3, k4⟩ := hA i j h
      exact ⟨k1, k2, k3, k4⟩
  | q => cases up; exacts [hP _ _ h, hQ _ _ h]
  | tq => cases up; exacts [hTP _ _ h, hTQ _ _ h]
  | p => cases up; exacts [hQ _ _ h, hP _ _ h]
  | tp => cases up; exacts [hTQ _ _ h, hTP _ _ h]

variable {𝕜 : Type v} [RCLike 𝕜]

/-- The sequential program depends only on the elements that have places. -/
theorem chaseSeqV_agree (hn : 2 ≤ n) (hnb : 0 < nb) {S S' : Store CM 𝕜} (h : ∀ x i j, chaseValidV up n nb x i j → S x i j = S' x i j) :
    ∀ x i j, chaseValidV up n nb x i j → chaseSeq id up n nb S x i j = chaseSeq id up n nb S' x i j := by
  unfold chaseSeq
  have hall : ∀ b ∈ blocks n nb, IsBlk n nb b := fun b hb => mem_blocks.mp hb
  generalize blocks n nb = L at hall
  induction L generalizing S S' with
  | nil => exact h
  | cons b L ih =>
    rw [List.foldl_cons, List.foldl_cons]
    refine ih (fun x i j hv => ?_) fun c hc => hall c (List.mem_cons_of_mem _ hc)
    have hb := hall b (List.mem_cons_self ..)
    by_cases hf : foot id up n nb b x i j
    · exact (kern_within hn hnb hb).1 S S' (fun x i j hf => h x i j (footV_valid hn hnb hb hf)) x i j hf
    · rw [(kern_within hn hnb hb).2 S x i j hf, (kern_within hn hnb hb).2 S' x i j hf]
      exact h x i j hv

/-! ### Products of stored reflectors -/

theorem filter_range (c : Nat) (p : Nat → Bool) (hp : ∀ q, p q = decide (q < c)) : ∀ N, (List.range N).filter p = List.range (min c N)
  | 0 => by simp
  | N + 1 => by
    rw [List.range_succ, List.filter_append, filter_range c p hp N]
    by_cases h : N < c
    · rw [List.filter_cons_of_pos (by rw [hp]; simpa using h), List.filter_nil, show min c N = N by omega, show min c (N + 1) = N + 1 by omega,
        List.range_succ]
    · rw [List.filter_cons_of_neg (by rw [hp]; simpa using h), List.filter_nil, List.append_nil, show min c N = min c (N + 1) by omega]

theorem isRefl_cnt (hn : 2 ≤ n) (hnb : 0 < nb) {s q : Nat} (hs : s + 1 < n) : Blg.IsRefl n nb s q ↔ q < cnt n nb (s + 1) := by
  rw [Blg.isRefl_iff hn hnb]
  unfold IsBlk cnt
  simp only
  omega

theorem refls_row (hn : 2 ≤ n) (hnb : 0 < nb) {s : Nat} (hs : s + 1 < n) :
    ((List.range n).filter fun q => decide (Blg.IsRefl n nb s q)) = List.range (cnt n nb (s + 1)) := by
  rw [filter_range (cnt n nb (s + 1)) _ (fun q => by simp only [isRefl_cnt hn hnb hs])]
  congr 1
  by_contra hne
  have h1 : n < cnt n nb (s + 1) := by omega
  obtain ⟨-, h2⟩ := (isRefl_cnt hn hnb hs).mpr h1
  have : n ≤ n * nb := Nat.le_mul_of_pos_right _ hnb
  omega

theorem prod_flat {ι κ M : Type*} [Monoid M] (g : ι → List κ) (f : κ → M) : ∀ l : List ι,
    ((l.flatMap g).map f).prod = (l.map fun s => ((g s).map f).prod).prod
  | [] => rfl
  | a :: l => by
    rw [List.flatMap_cons, List.map_append, List.prod_append, prod_flat g f l, List.map_cons, List.prod_cons]

theorem allAt_bulgeQ (hn : 2 ≤ n) (hnb : 0 < nb) {Vm Tm : CM} {X : Store CM 𝕜} {Va Ta : Nat → 𝕜}
    (hVa : ∀ h j, ofRefl n nb h j → Va (vplace n nb V h j) = X Vm h j)
    (hTa : ∀ h j, ofRefl n nb h j ∧ (j - h) % nb = 0 → Ta (Blg.taupos n nb V (h - 1) j) = X Tm h j) :
    allAt Vm Tm n nb X (n - 1) = Blg.bulgeQ n nb V Va Ta := by
  unfold allAt Blg.bulgeQ Blg.refls
  rw [prod_flat]
  congr 1
  refine List.map_congr_left fun s hs => ?_
  have hs : s + 1 < n := by have := List.mem_range.mp hs; omega
  rw [refls_row hn hnb hs, List.map_map]
  unfold prodAt
  congr 1
  refine List.map_congr_left fun q hq => ?_
  have hq := (isRefl_cnt hn hnb hs).mpr (List.mem_range.mp hq)
  have hst : s + 1 + q * nb < n := by
    obtain ⟨h1, rfl | h2⟩ := hq
    · omega
    · omega
  ext ⟨r, hr⟩ ⟨c, hc⟩
  have eV : ∀ r, r < n → vecAt Vm (s + 1) (s + 1 + q * nb) nb X r = Blg.wvec n nb V Va s q r := by
    intro r hr
    unfold vecAt Blg.wvec Blg.rst
    split
    · rename_i h
      obtain ⟨d1, d2⟩ := div_block h.1 h.2
      have g : ofRefl n nb (s + 1) r := ⟨by omega, by omega, hr, by rw [d1]; exact hq⟩
      rw [← hVa _ _ g]
      unfold vplace Blg.rst
      rw [d1, d2, Nat.add_sub_cancel]
    · rfl
  have eT : X Tm (s + 1) (s + 1 + q * nb) = Blg.wtau n nb V Ta s q := by
    obtain ⟨d1, d2⟩ := div_block (nb := nb) (s := s + 1) (q := q) (j := s + 1 + q * nb) le_rfl (by omega)
    have g : ofRefl n nb (s + 1) (s + 1 + q * nb) ∧ (s + 1 + q * nb - (s + 1)) % nb = 0 := ⟨⟨by omega, by omega, hst, by rw [d1]; exact hq⟩, by rw [d2]; omega⟩
    rw [← hTa _ _ g]
    rfl
  unfold reflAt
  simp only [Function.comp_apply]
  unfold Qr.refl
  simp only [Matrix.sub_apply, Matrix.of_apply]
  rw [eV r hr, eV c hc, eT]

end

end Verif.Bulge

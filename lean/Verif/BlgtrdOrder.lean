/-
The blocks of reflectors of the bulge chasing multiply to the product of all reflectors in the order in which they were generated.
-/
import Verif.Blgtrd
import Mathlib.Data.List.Perm.Lattice

namespace Verif.Blg

open Verif.Layout Verif.Qr Verif.Sched Finset Matrix

universe v

section
variable {N NB V : Nat}

/-- Sweeps in their order, the reflectors of a sweep from top to bottom. -/
def refls (N NB : Nat) : List (Nat × Nat) :=
  (List.range (N - 1)).flatMap fun s => ((List.range N).filter fun q => decide (IsRefl N NB s q)).map fun q => (s, q)

theorem mem_refls (hNB : 0 < NB) {a : Nat × Nat} : a ∈ refls N NB ↔ IsRefl N NB a.1 a.2 := by
  obtain ⟨s, q⟩ := a
  simp only [refls, List.mem_flatMap, List.mem_range, List.mem_map, List.mem_filter, decide_eq_true_eq, Prod.mk.injEq]
  constructor
  · rintro ⟨s', -, q', ⟨-, h⟩, rfl, rfl⟩
    exact h
  · intro h
    refine ⟨s, by have := h.1; omega, q, ⟨?_, h⟩, rfl, rfl⟩
    obtain ⟨h1, rfl | h2⟩ := h
    · omega
    · have : q ≤ q * NB := Nat.le_mul_of_pos_right _ hNB
      omega

/-- The reflectors in the order in which `plasma_pzunmqr_blgtrd` applies them from the left: block by block, the last column of a block first. -/
def applied (N NB V : Nat) : List (Nat × Nat) :=
  (diamonds N NB V).flatMap fun b => (List.range (vn N NB V b)).reverse.map fun l => (b.1 * V + l, b.2)

theorem mem_applied (hNB : 2 ≤ NB) (hV : 0 < V) {a : Nat × Nat} : a ∈ applied N NB V ↔ IsRefl N NB a.1 a.2 := by
  obtain ⟨s, q⟩ := a
  simp only [applied, List.mem_flatMap, List.mem_map, List.mem_reverse, List.mem_range, Prod.mk.injEq, Prod.exists, mem_diamonds]
  constructor
  · rintro ⟨j, q', ⟨hj, -⟩, l, hl, rfl, rfl⟩
    exact ((lt_vn hNB hV hj).mp hl).2
  · intro h
    have hs := sweep_nt hV h.1
    have e : s / V * V + s % V = s := Nat.div_add_mod' s V
    refine ⟨s / V, q, ⟨hs, refl_mt (by omega) hV h⟩, s % V, (lt_vn hNB hV hs).mpr ⟨Nat.mod_lt _ hV, ?_⟩, e, rfl⟩
    rw [e]; exact h

/-- Order of `applied`. -/
def appLt (V : Nat) (a b : Nat × Nat) : Prop :=
  b.1 / V < a.1 / V ∨ (a.1 / V = b.1 / V ∧ (a.2 < b.2 ∨ (a.2 = b.2 ∧ b.1 < a.1)))

/-- Order of `refls` reversed. -/
def canLt (a b : Nat × Nat) : Prop := b.1 < a.1 ∨ (a.1 = b.1 ∧ b.2 < a.2)

theorem pairwise_range (n : Nat) : (List.range n).Pairwise (· < ·) := List.pairwise_lt_range

theorem applied_pw (hV : 0 < V) : (applied N NB V).Pairwise (appLt V) := by
  have key : ∀ b : Nat × Nat, ∀ x ∈ (List.range (vn N NB V b)).reverse.map (fun l => (b.1 * V + l, b.2)), x.1 / V = b.1 ∧ x.2 = b.2 := by
    intro b x hx
    simp only [List.mem_map, List.mem_reverse, List.mem_range] at hx
    obtain ⟨l, hl, rfl⟩ := hx
    refine ⟨?_, rfl⟩
    have := vn_le (N := N) (NB := NB) (V := V) b
    show (b.1 * V + l) / V = b.1
    rw [Nat.mul_comm, Nat.mul_add_div hV, Nat.div_eq_of_lt (by omega)]
    rfl
  unfold applied
  rw [List.pairwise_flatMap]
  constructor
  · intro b _
    rw [List.pairwise_map, List.pairwise_reverse]
    refine (pairwise_range _).imp_of_mem fun {l l'} hl hl' h => ?_
    have h1 := (key b (b.1 * V + l, b.2) (List.mem_map.mpr ⟨l, List.mem_reverse.mpr hl, rfl⟩)).1
    have h2 := (key b (b.1 * V + l', b.2) (List.mem_map.mpr ⟨l', List.mem_reverse.mpr hl', rfl⟩)).1
    exact Or.inr ⟨h2.trans h1.symm, Or.inr ⟨rfl, Nat.add_lt_add_left h _⟩⟩
  · have hd : (diamonds N NB V).Pairwise fun b b' => b'.1 < b.1 ∨ (b.1 = b'.1 ∧ b.2 < b'.2) := by
      unfold diamonds
      rw [List.pairwise_flatMap]
      constructor
      · intro j _
        rw [List.pairwise_map]
        exact (pairwise_range _).imp fun h => Or.inr ⟨rfl, h⟩
      · rw [List.pairwise_reverse]
        refine (pairwise_range _).imp fun {j j'} h x hx y hy => ?_
        simp only [List.mem_map] at hx hy
        obtain ⟨_, _, rfl⟩ := hx
        obtain ⟨_, _, rfl⟩ := hy
        exact Or.inl h
    refine hd.imp fun {b b'} h x hx y hy => ?_
    obtain ⟨hx1, hx2⟩ := key b x hx
    obtain ⟨hy1, hy2⟩ := key b' y hy
    rcases h with h | ⟨h, h'⟩
    · exact Or.inl (by rw [hx1, hy1]; exact h)
    · exact Or.inr ⟨by rw [hx1, hy1]; exact h, Or.inl (by rw [hx2, hy2]; exact h')⟩

theorem refls_pw : (refls N NB).reverse.Pairwise canLt := by
  rw [List.pairwise_reverse]
  unfold refls
  rw [List.pairwise_flatMap]
  constructor
  · intro s _
    rw [List.pairwise_map]
    exact ((pairwise_range _).filter _).imp fun h => Or.inr ⟨rfl, h⟩
  · refine (pairwise_range _).imp fun {s s'} h x hx y hy => ?_
    simp only [List.mem_map] at hx hy
    obtain ⟨_, _, rfl⟩ := hx
    obtain ⟨_, _, rfl⟩ := hy
    exact Or.inl h

theorem nodup_of_pw {α : Type v} {R : α → α → Prop} {l : List α} (h : l.Pairwise R) (hR : ∀ a, ¬ R a a) : l.Nodup := by
  unfold List.Nodup
  exact h.imp fun {a b} hab (e : a = b) => hR a (by rw [← e] at hab; exact hab)

theorem applied_perm (hNB : 2 ≤ NB) (hV : 0 < V) : (applied N NB V).Perm (refls N NB).reverse := by
  refine (List.perm_ext_iff_of_nodup (nodup_of_pw (applied_pw hV) ?_) (nodup_of_pw refls_pw ?_)).mpr fun a => ?_
  · intro a h; unfold appLt at h; omega
  · intro a h; unfold canLt at h; omega
  · rw [mem_applied hNB hV, List.mem_reverse, mem_refls (by omega)]

section
variable {α : Type v} [CommRing α] [StarRing α]

theorem refl_comm {d : Nat} {w w' : Nat → α} {τ τ' : α} (h : ∀ r, r < d → w r = 0 ∨ w' r = 0) : refl d w τ * refl d w' τ' = refl d w' τ' * refl d w τ := by
  have key : ∀ {w w' : Nat → α} {τ τ' : α}, (∀ r, r < d → w r = 0 ∨ w' r = 0) →
      (Matrix.of fun (r : Fin d) (r' : Fin d) => w r * τ * star (w r')) * (Matrix.of fun (r : Fin d) (r' : Fin d) => w' r * τ' * star (w' r')) = 0 := by
    intro w w' τ τ' h
    ext r r'
    rw [Matrix.mul_apply]
    refine Finset.sum_eq_zero fun k _ => ?_
    simp only [Matrix.of_apply]
    rcases h k k.2 with e | e <;> rw [e] <;> simp
  unfold Qr.refl
  have h1 := key (τ := τ) (τ' := τ') h
  have h2 := key (τ := τ') (τ' := τ) fun r hr => (h r hr).symm
  simp only [sub_mul, mul_sub, h1, h2, one_mul, mul_one, sub_zero]
  abel

omit [StarRing α] in
theorem execL_mul {ι : Type} {d : Nat} (H : ι → Matrix (Fin d) (Fin d) α) : ∀ (l : List ι) (x : Fin d → α),
    execL (l.map fun a => (H a).mulVec) x = ((l.reverse.map H).prod).mulVec x
  | [], x => by simp
  | a :: l, x => by
    rw [List.map_cons, execL_cons, execL_mul H l, List.reverse_cons, List.map_append, List.prod_append, Matrix.mulVec_mulVec]
    simp

/-- The product of the reflectors, sweep by sweep, applied to a vector: what the blocks compute. -/
theorem applied_eq (hNB : 2 ≤ NB) (hV : 0 < V) {w : Nat → Nat → Nat → α} {τ : Nat → Nat → α}
    (hw : ∀ s q r, ¬ (rst NB s q ≤ r ∧ r < rst NB s q + NB) → w s q r = 0) (x : Fin N → α) :
    execL ((applied N NB V).map fun a => (refl N (w a.1 a.2) (τ a.1 a.2)).mulVec) x =
      (((refls N NB).map fun a => refl N (w a.1 a.2) (τ a.1 a.2)).prod).mulVec x := by
  rw [trace (fun a : Nat × Nat => (refl N (w a.1 a.2) (τ a.1 a.2)).mulVec) canLt _ _ (applied_perm hNB hV) refls_pw ?_ x,
    execL_mul (fun a : Nat × Nat => refl N (w a.1 a.2) (τ a.1 a.2)), List.reverse_reverse]
  refine (applied_pw hV).imp fun {a b} hab hc t => ?_
  rw [Matrix.mulVec_mulVec, Matrix.mulVec_mulVec, refl_comm]
  intro r _
  have hq : a.1 ≤ b.1 ∧ a.2 < b.2 := by
    unfold appLt at hab
    unfold canLt at hc
    rcases hab with h | ⟨h, h' | h'⟩
    · rcases hc with hc | hc
      · have := Nat.div_le_div_right (c := V) (Nat.le_of_lt hc)
        omega
      · rw [hc.1] at h; omega
    · omega
    · omega
  have h2 : a.2 * NB + NB ≤ b.2 * NB := by
    rw [← Nat.succ_mul]
    exact Nat.mul_le_mul_right _ hq.2
  by_cases h : rst NB a.1 a.2 ≤ r ∧ r < rst NB a.1 a.2 + NB
  · right
    refine hw _ _ _ ?_
    unfold rst at h ⊢
    omega
  · exact Or.inl (hw _ _ _ h)

end
end
end Verif.Blg

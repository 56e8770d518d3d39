/-
Properties of the bulge chasing, compute/pzgbbrd_static.c: the result is bidiagonal, C73.
-/
import Verif.BulgeFold
import Verif.Props.Gbbrd
import Mathlib.LinearAlgebra.Matrix.Trace

namespace Verif.Props

open Verif.Sched Verif.Tile Verif.Bulge Verif.Qr Matrix

universe v

/-- The places of a band matrix of width `nb`. -/
def BrdBand (up : Bool) (nb r c : Nat) : Prop := if up then r ≤ c ∧ c ≤ r + nb else c ≤ r ∧ r ≤ c + nb

instance : Decidable (BrdBand up nb r c) := by unfold BrdBand; infer_instance

/-- The places of the main diagonal and the diagonal next to it. -/
def BrdBi (up : Bool) (r c : Nat) : Prop := if up then c = r ∨ c = r + 1 else r = c ∨ r = c + 1

instance : Decidable (BrdBi up r c) := by unfold BrdBi; infer_instance

section
variable {𝕜 : Type v} [RCLike 𝕜]

/-- The band matrix that the band array holds. -/
def bandOf (up : Bool) (n nb : Nat) (mem : CM × Nat → 𝕜) : Matrix (Fin n) (Fin n) 𝕜 :=
  of fun r c => if BrdBand up nb r c then mem (.a, bandAddr up nb r c) else 0

/-- `D[i]` after the bulge chasing (compute/pzgbbrd_static.c:188-201). -/
noncomputable def brdD (up : Bool) (nb : Nat) (mem : CM × Nat → 𝕜) (i : Nat) : ℝ := RCLike.re (mem (.a, bandAddr up nb i i))

/-- `E[i]` after the bulge chasing (compute/pzgbbrd_static.c:188-201). -/
noncomputable def brdE (up : Bool) (nb : Nat) (mem : CM × Nat → 𝕜) (i : Nat) : ℝ :=
  RCLike.re (mem (.a, if up then bandAddr up nb i (i + 1) else bandAddr up nb (i + 1) i))

/-- The bidiagonal matrix with diagonal `D` and off-diagonal `E`. -/
noncomputable def bidiag (𝕜 : Type v) [RCLike 𝕜] (up : Bool) (n : Nat) (D E : Nat → ℝ) : Matrix (Fin n) (Fin n) 𝕜 :=
  of fun r c => if r.1 = c.1 then (D r.1 : 𝕜) else if BrdBi up r c then (E (min r.1 c.1) : 𝕜) else 0

/-- What the caller provides: zeros next to the band inside the array, and `TAUQ`, `TAUP` are zero
(compute/zgesdd.c:463, 532, 563). -/
structure ChaseIn (up : Bool) (n nb : Nat) (mem : CM × Nat → 𝕜) : Prop where
  zero : ∀ r c, r < n → c < n → (if up then c ≤ r + 2 * nb ∧ r ≤ c + nb else r ≤ c + 2 * nb ∧ c ≤ r + nb) → ¬ BrdBand up nb r c →
    mem (.a, bandAddr up nb r c) = 0
  tq : nb = 1 → ∀ x, x < 2 * n → mem (.tq, x) = 0
  tp : nb = 1 → ∀ x, x < 2 * n → mem (.tp, x) = 0

variable {up : Bool} {n nb cores : Nat} {mem mem' : CM × Nat → 𝕜}

open Classical in
/-- Memory as elements, zero where there is no place. -/
noncomputable def cview (up : Bool) (n nb : Nat) (mem : CM × Nat → 𝕜) : Store CM 𝕜 := fun x i j =>
  if chaseValid up n nb x i j then mem (chaseLoc up n nb x i j) else 0

theorem chaseSeq_agree (hn : 2 ≤ n) (hnb : 0 < nb) {S S' : Store CM 𝕜} (h : ∀ x i j, chaseValid up n nb x i j → S x i j = S' x i j) :
    ∀ x i j, chaseValid up n nb x i j → chaseSeq par up n nb S x i j = chaseSeq par up n nb S' x i j := by
  unfold chaseSeq
  have hall : ∀ b ∈ blocks n nb, IsBlk n nb b := fun b hb => mem_blocks.mp hb
  generalize blocks n nb = L at hall
  induction L generalizing S S' with
  | nil => exact h
  | cons b L ih =>
    rw [List.foldl_cons, List.foldl_cons]
    refine ih (fun x i j hv => ?_) fun c hc => hall c (List.mem_cons_of_mem _ hc)
    have hb := hall b (List.mem_cons_self ..)
    by_cases hf : foot par up n nb b x i j
    · exact (kern_within hn hnb hb).1 S S' (fun x i j hf => h x i j (foot_valid hn hnb hb hf)) x i j hf
    · rw [(kern_within hn hnb hb).2 S x i j hf, (kern_within hn hnb hb).2 S' x i j hf]
      exact h x i j hv

theorem one_exec (h : ChaseExec up 1 nb cores mem mem') : mem' = mem := by
  obtain ⟨Ts, σ, hI, hr, hd, rfl⟩ := h
  have hT : Ts = [] := by
    unfold ChaseImpl at hI
    have e : chaseProg 𝕜 par up 1 nb (allcores 1 nb cores) = [] := rfl
    rw [e] at hI
    exact List.forall₂_nil_left_iff.mp hI
  subst hT
  have hs : σ = start 1 nb (allcores 1 nb cores) (cntOf 1 nb ([] : List (Task CM (CM × Nat) 𝕜))) (coreid nb (allcores 1 nb cores)) := by
    rcases Relation.ReflTransGen.cases_head hr with h | ⟨σ', ⟨t, b, k, rest, h1, _⟩, _⟩
    · exact h.symm
    · have e : (start 1 nb (allcores 1 nb cores) (cntOf 1 nb ([] : List (Task CM (CM × Nat) 𝕜)))
          (coreid nb (allcores 1 nb cores))).todo t = [] := rfl
      rw [e] at h1
      cases h1
  subst hs
  rfl

theorem valid_band (hb : BrdBand up nb r c) (hr : r < n) (hc : c < n) : chaseValid up n nb .a r c := by
  unfold BrdBand at hb
  refine ⟨hr, hc, ?_⟩
  cases up
  · simp only [Bool.false_eq_true, if_false] at hb ⊢
    omega
  · simp only [if_true] at hb ⊢
    omega

theorem bi_band (hnb : 0 < nb) (h : BrdBi up r c) : BrdBand up nb r c := by
  unfold BrdBi at h
  unfold BrdBand
  cases up
  · simp only [Bool.false_eq_true, if_false] at h ⊢
    omega
  · simp only [if_true] at h ⊢
    omega

/-- **C73.** Every execution of the bulge chasing, by any number of threads, turns the band matrix into a matrix `B` with
`A = Q·B·P`, `Q` and `P` unitary.  `B` has the main diagonal and one more; its entries are in the band array, all real except
possibly the first one, which is not changed. -/
theorem C73_bidiag (hn : 1 ≤ n) (hnb : 0 < nb) (hin : ChaseIn up n nb mem) (h : ChaseExec up n nb cores mem mem') :
    (∃ Q ∈ unitaryGroup (Fin n) 𝕜, ∃ P ∈ unitaryGroup (Fin n) 𝕜,
      bandOf up n nb mem = Q * (of fun r c : Fin n => if BrdBi up r c then mem' (.a, bandAddr up nb r c) else 0) * P) ∧
    (∀ r c, r < n → c < n → BrdBi up r c → (r, c) ≠ (0, 0) → star (mem' (.a, bandAddr up nb r c)) = mem' (.a, bandAddr up nb r c)) ∧
    mem' (.a, bandAddr up nb 0 0) = mem (.a, bandAddr up nb 0 0) ∧
    ∀ r c, r < n → c < n → BrdBand up nb r c → ¬ BrdBi up r c → mem' (.a, bandAddr up nb r c) = 0 := by
  rcases Nat.eq_or_lt_of_le hn with rfl | hn
  · rw [one_exec h]
    have h00 : ∀ r c, r < 1 → c < 1 → r = 0 ∧ c = 0 := by omega
    refine ⟨⟨1, one_mem _, 1, one_mem _, ?_⟩, fun r c hr hc _ h => ?_, rfl, fun r c hr hc _ h => ?_⟩
    · rw [Matrix.one_mul, Matrix.mul_one]
      ext r c
      obtain ⟨e1, e2⟩ := h00 r.1 c.1 r.2 c.2
      unfold bandOf
      simp only [of_apply, e1, e2]
      rw [if_pos (by unfold BrdBand; cases up <;> simp), if_pos (by unfold BrdBi; cases up <;> simp)]
    · obtain ⟨rfl, rfl⟩ := h00 r c hr hc
      exact absurd rfl h
    · obtain ⟨rfl, rfl⟩ := h00 r c hr hc
      exact absurd (by unfold BrdBi; cases up <;> simp) h
  · have hn : 2 ≤ n := hn
    obtain ⟨hres, -⟩ := C72_result hn hnb h
    have e1 : ∀ x i j, chaseValid up n nb x i j → mem' (chaseLoc up n nb x i j) = chaseSeq par up n nb (cview up n nb mem) x i j := by
      intro x i j hv
      refine (hres x i j hv).trans ?_
      exact chaseSeq_agree hn hnb (fun x i j hv => by unfold cview; rw [if_pos hv]) x i j hv
    have eA : ∀ r c, r < n → c < n → BrdBand up nb r c → mem' (.a, bandAddr up nb r c) = chaseSeq par up n nb (cview up n nb mem) .a r c :=
      fun r c hr hc hb => e1 .a r c (valid_band hb hr hc)
    have hz : ∀ r c, r < n → c < n → ¬ BrdBand up nb r c → cview up n nb mem .a r c = 0 := by
      intro r c hr hc hb
      unfold cview
      split_ifs with hv
      · exact hin.zero r c hr hc hv.2.2 hb
      · rfl
    have hb0 : mat n n (cview up n nb mem .a) = bandOf up n nb mem := by
      ext r c
      rw [mat_apply]
      unfold bandOf
      rw [of_apply]
      split_ifs with hb
      · unfold cview
        rw [if_pos (valid_band hb r.2 c.2)]
        rfl
      · exact hz r c r.2 c.2 hb
    have htau : nb = 1 → (∀ h j, cview up n nb mem .tq h j = 0) ∧ ∀ h j, cview up n nb mem .tp h j = 0 := by
      intro e
      have hx : ∀ i j, i < 2 ∧ j < n → i * n + j < 2 * n := by
        rintro i j ⟨h1, h2⟩
        have : i * n ≤ 1 * n := Nat.mul_le_mul_right n (by omega)
        omega
      constructor
      · intro h j
        unfold cview
        split_ifs with hv
        · exact hin.tq e _ (hx h j hv)
        · rfl
      · intro h j
        unfold cview
        split_ifs with hv
        · exact hin.tp e _ (hx h j hv)
        · rfl
    have main : UEq (mat n n (cview up n nb mem .a)) (mat n n (chaseSeq par up n nb (cview up n nb mem) .a)) ∧
        (∀ r c, r < n → c < n → ¬ BrdBi up r c → chaseSeq par up n nb (cview up n nb mem) .a r c = 0) ∧
        (∀ r c, r < n → c < n → BrdBi up r c → (r, c) ≠ (0, 0) →
          star (chaseSeq par up n nb (cview up n nb mem) .a r c) = chaseSeq par up n nb (cview up n nb mem) .a r c) ∧
        chaseSeq par up n nb (cview up n nb mem) .a 0 0 = cview up n nb mem .a 0 0 := by
      cases up
      · obtain ⟨h1, h2, h3, h4⟩ := chase_lower (S := cview false n nb mem) hn hnb
          (fun r c hr hc hb => hz r c hr hc (by unfold BrdBand; simpa using hb)) (fun e => (htau e).1)
        refine ⟨h1, fun r c hr hc hb => h2 r c hr hc (by unfold BrdBi at hb; simpa using hb), fun r c hr hc hb hne => ?_, h4⟩
        unfold BrdBi at hb
        simp only [Bool.false_eq_true, if_false] at hb
        rcases hb with rfl | rfl
        · exact (h3 r (by by_contra h; exact hne (by simp; omega)) hr).1
        · exact (h3 (c + 1) (by omega) hr).2
      · obtain ⟨h1, h2, h3, h4⟩ := chase_upper (S := cview true n nb mem) hn hnb
          (fun r c hr hc hb => hz r c hr hc (by unfold BrdBand; simpa using hb)) (fun e => (htau e).2)
        refine ⟨h1, fun r c hr hc hb => h2 r c hr hc (by unfold BrdBi at hb; simpa using hb), fun r c hr hc hb hne => ?_, h4⟩
        unfold BrdBi at hb
        simp only [if_true] at hb
        rcases hb with rfl | rfl
        · exact (h3 c (by by_contra h; exact hne (by simp; omega)) hr).1
        · exact (h3 (r + 1) (by omega) hc).2
    obtain ⟨m1, m2, m3, m4⟩ := main
    have h00 : BrdBi up 0 0 := by unfold BrdBi; cases up <;> simp
    refine ⟨?_, fun r c hr hc hb hne => ?_, ?_, fun r c hr hc hb hbi => ?_⟩
    · obtain ⟨Q, hQ, P, hP, e⟩ := m1
      refine ⟨Q, hQ, P, hP, ?_⟩
      rw [← hb0, e]
      congr 2
      ext r c
      rw [mat_apply, of_apply]
      split_ifs with hb
      · exact (eA r c r.2 c.2 (bi_band hnb hb)).symm
      · exact m2 r c r.2 c.2 hb
    · rw [eA r c hr hc (bi_band hnb hb)]
      exact m3 r c hr hc hb hne
    · rw [eA 0 0 (by omega) (by omega) (bi_band hnb h00), m4]
      unfold cview
      rw [if_pos (valid_band (bi_band hnb h00) (by omega) (by omega))]
      rfl
    · rw [eA r c hr hc hb]
      exact m2 r c hr hc hbi

/-- The two diagonals as `D` and `E` when they are real. -/
theorem bidiag_eq {mem' : CM × Nat → 𝕜}
    (hst : ∀ r c, r < n → c < n → BrdBi up r c → star (mem' (.a, bandAddr up nb r c)) = mem' (.a, bandAddr up nb r c)) :
    (of fun r c : Fin n => if BrdBi up r c then mem' (.a, bandAddr up nb r c) else 0) = bidiag 𝕜 up n (brdD up nb mem') (brdE up nb mem') := by
  have hre : ∀ z : 𝕜, star z = z → (RCLike.re z : 𝕜) = z := fun z hz => RCLike.conj_eq_iff_re.mp hz
  ext r c
  unfold bidiag
  rw [of_apply, of_apply]
  by_cases hrc : r.1 = c.1
  · have hb : BrdBi up r c := by unfold BrdBi; cases up <;> simp [hrc]
    rw [if_pos hb, if_pos hrc, ← hrc]
    unfold brdD
    rw [hre]
    exact hst r r r.2 r.2 (by rw [← hrc] at hb; exact hb)
  · rw [if_neg hrc]
    split_ifs with hb
    · unfold brdE
      have hb' := hb
      unfold BrdBi at hb'
      cases up
      · simp only [Bool.false_eq_true, if_false] at hb' ⊢
        have e1 : r.1 = c.1 + 1 := by omega
        rw [show min r.1 c.1 = c.1 by omega, ← e1, hre _ (hst r c r.2 c.2 hb)]
      · simp only [if_true] at hb' ⊢
        have e1 : c.1 = r.1 + 1 := by omega
        rw [show min r.1 c.1 = r.1 by omega, ← e1, hre _ (hst r c r.2 c.2 hb)]
    · rfl

/-- **C73, `D` and `E`.** If the first diagonal element is real, as `plasma_pzge2gb` leaves it, `A = Q·bidiag(D, E)·P`. -/
theorem C73_DE (hn : 1 ≤ n) (hnb : 0 < nb) (hin : ChaseIn up n nb mem) (h0 : star (mem (.a, bandAddr up nb 0 0)) = mem (.a, bandAddr up nb 0 0))
    (h : ChaseExec up n nb cores mem mem') : ∃ Q ∈ unitaryGroup (Fin n) 𝕜, ∃ P ∈ unitaryGroup (Fin n) 𝕜,
      bandOf up n nb mem = Q * bidiag 𝕜 up n (brdD up nb mem') (brdE up nb mem') * P := by
  obtain ⟨⟨Q, hQ, P, hP, e⟩, h1, h2, -⟩ := C73_bidiag hn hnb hin h
  refine ⟨Q, hQ, P, hP, ?_⟩
  rw [e]
  congr 2
  refine bidiag_eq fun r c hr hc hb => ?_
  by_cases hne : (r, c) = (0, 0)
  · obtain ⟨rfl, rfl⟩ := Prod.mk.injEq .. ▸ hne
    rw [h2, h0]
  · exact h1 r c hr hc hb hne

theorem trace_ueq {X Y Q P : Matrix (Fin n) (Fin n) 𝕜} (hQ : Q ∈ unitaryGroup (Fin n) 𝕜) (hP : P ∈ unitaryGroup (Fin n) 𝕜)
    (e : X = Q * Y * P) : (Xᴴ * X).trace = (Yᴴ * Y).trace := by
  have h1 : Qᴴ * Q = 1 := mem_unitaryGroup_iff'.mp hQ
  have h2 : P * Pᴴ = 1 := mem_unitaryGroup_iff.mp hP
  rw [e, conjTranspose_mul, conjTranspose_mul]
  have : Pᴴ * (Yᴴ * Qᴴ) * (Q * Y * P) = Pᴴ * (Yᴴ * Y * P) := by
    simp only [Matrix.mul_assoc]
    rw [← Matrix.mul_assoc Qᴴ Q, h1, Matrix.one_mul]
  rw [this, trace_mul_comm, Matrix.mul_assoc, h2, Matrix.mul_one]

theorem trace_sq (X : Matrix (Fin n) (Fin n) 𝕜) : (Xᴴ * X).trace = ((∑ c, ∑ r, ‖X r c‖ ^ 2 : ℝ) : 𝕜) := by
  rw [Matrix.trace, RCLike.ofReal_sum]
  refine Finset.sum_congr rfl fun c _ => ?_
  rw [diag_apply, mul_apply, RCLike.ofReal_sum]
  refine Finset.sum_congr rfl fun r _ => ?_
  rw [conjTranspose_apply, RCLike.star_def, RCLike.conj_mul]
  simp

/-- The comment "D and E are always real after the bulgechasing" (compute/pzgbbrd_static.c:184-185) needs the first element to
be real: for a matrix whose only non-zero element is `A(0,0) = i`, `D` and `E` are zero. -/
theorem C73_first_element (hn : 1 ≤ n) (hnb : 0 < nb) {mem mem' : CM × Nat → ℂ}
    (hm : mem = fun l => if l = (.a, bandAddr up nb 0 0) then Complex.I else 0) (h : ChaseExec up n nb cores mem mem') :
    bandOf up n nb mem ≠ 0 ∧ ∀ i, i < n → brdD up nb mem' i = 0 ∧ (i + 1 < n → brdE up nb mem' i = 0) := by
  have h00 : BrdBi up 0 0 := by unfold BrdBi; cases up <;> simp
  have h0B : BrdBand up nb 0 0 := bi_band hnb h00
  have haddr : ∀ r c, r < n → c < n → chaseValid up n nb .a r c → (r, c) ≠ (0, 0) → mem (.a, bandAddr up nb r c) = 0 := by
    intro r c hr hc hv hne
    rw [hm]
    simp only
    rw [if_neg]
    intro e
    have := chase_inj (up := up) (n := n) (nb := nb) CM.a r c CM.a 0 0 hv (valid_band h0B (by omega) (by omega)) e
    exact hne (by rw [this.2.1, this.2.2])
  have hin : ChaseIn up n nb mem := by
    refine ⟨fun r c hr hc hw hb => haddr r c hr hc ⟨hr, hc, hw⟩ ?_, fun _ x _ => by rw [hm]; simp, fun _ x _ => by rw [hm]; simp⟩
    rintro e
    obtain ⟨rfl, rfl⟩ := Prod.mk.injEq .. ▸ e
    exact hb h0B
  have hB : ∀ r c : Fin n, bandOf up n nb mem r c = if (r.1, c.1) = (0, 0) then Complex.I else 0 := by
    intro r c
    unfold bandOf
    rw [of_apply]
    split_ifs with h1 h2 h2
    · obtain ⟨e1, e2⟩ := Prod.mk.injEq .. ▸ h2
      rw [e1, e2, hm]
      simp
    · exact haddr r c r.2 c.2 (valid_band h1 r.2 c.2) h2
    · obtain ⟨e1, e2⟩ := Prod.mk.injEq .. ▸ h2
      rw [e1, e2] at h1
      exact absurd h0B h1
    · rfl
  constructor
  · intro e
    have := hB ⟨0, hn⟩ ⟨0, hn⟩
    rw [e] at this
    simp at this
    exact Complex.I_ne_zero this.symm
  · obtain ⟨⟨Q, hQ, P, hP, e⟩, h1, h2, -⟩ := C73_bidiag hn hnb hin h
    have ht := trace_ueq hQ hP e
    rw [trace_sq, trace_sq] at ht
    have ht := RCLike.ofReal_inj.mp ht
    set Y : Matrix (Fin n) (Fin n) ℂ := of fun r c : Fin n => if BrdBi up r c then mem' (.a, bandAddr up nb r c) else 0 with hY
    have hY0 : Y ⟨0, hn⟩ ⟨0, hn⟩ = Complex.I := by
      rw [hY, of_apply, if_pos h00, h2, hm]
      simp
    have hsum : ∑ c, ∑ r, ‖bandOf up n nb mem r c‖ ^ 2 = 1 := by
      rw [Finset.sum_eq_single ⟨0, hn⟩, Finset.sum_eq_single ⟨0, hn⟩]
      · rw [hB]; simp
      · intro r _ hr
        rw [hB, if_neg (fun e => hr (Fin.ext (Prod.mk.injEq .. ▸ e).1))]
        simp
      · intro h; exact absurd (Finset.mem_univ _) h
      · intro c _ hc
        refine Finset.sum_eq_zero fun r _ => ?_
        rw [hB, if_neg (fun e => hc (Fin.ext (Prod.mk.injEq .. ▸ e).2))]
        simp
      · intro h; exact absurd (Finset.mem_univ _) h
    rw [hsum] at ht
    have hzero : ∀ r c : Fin n, (r.1, c.1) ≠ (0, 0) → Y r c = 0 := by
      intro r c hne
      by_contra hc
      have hpos : 0 < ‖Y r c‖ ^ 2 := by positivity
      have hp : ∑ c, ∑ r, ‖Y r c‖ ^ 2 = ∑ p : Fin n × Fin n, ‖Y p.2 p.1‖ ^ 2 := (Fintype.sum_prod_type' fun c r => ‖Y r c‖ ^ 2).symm
      rw [hp] at ht
      have hlt : ∑ p ∈ {((⟨0, hn⟩ : Fin n), (⟨0, hn⟩ : Fin n)), (c, r)}, ‖Y p.2 p.1‖ ^ 2 ≤ ∑ p : Fin n × Fin n, ‖Y p.2 p.1‖ ^ 2 :=
        Finset.sum_le_sum_of_subset_of_nonneg (Finset.subset_univ _) fun _ _ _ => by positivity
      rw [Finset.sum_pair (by
        intro e
        obtain ⟨e1, e2⟩ := Prod.mk.injEq .. ▸ e
        exact hne (by rw [← e1, ← e2])), hY0] at hlt
      simp only [Complex.norm_I, one_pow] at hlt
      linarith
    have hval : ∀ r c, r < n → c < n → BrdBi up r c → (r, c) ≠ (0, 0) → mem' (.a, bandAddr up nb r c) = 0 := by
      intro r c hr hc hb hne
      have := hzero ⟨r, hr⟩ ⟨c, hc⟩ hne
      rw [hY, of_apply, if_pos hb] at this
      exact this
    intro i hi
    refine ⟨?_, fun hi' => ?_⟩
    · unfold brdD
      rcases Nat.eq_zero_or_pos i with rfl | h0
      · rw [h2, hm]; simp
      · rw [hval i i hi hi (by unfold BrdBi; cases up <;> simp) (by simp; omega)]
        simp
    · unfold brdE
      cases up
      · simp only [Bool.false_eq_true, if_false]
        rw [hval (i + 1) i hi' hi (by unfold BrdBi; simp) (by simp)]
        simp
      · simp only [if_true]
        rw [hval i (i + 1) hi hi' (by unfold BrdBi; simp) (by simp)]
        simp

/-- The hypotheses are met: a 5 by 5 band matrix of ones with `nb = 2`. -/
example : ∃ mem mem' : CM × Nat → ℂ, ChaseIn true 5 2 mem ∧ mem (.a, bandAddr true 2 3 4) = 1 ∧
    star (mem (.a, bandAddr true 2 0 0)) = mem (.a, bandAddr true 2 0 0) ∧ ChaseExec true 5 2 3 mem mem' := by
  obtain ⟨mem', h⟩ := C72_exists (𝕜 := ℂ) (up := true) (n := 5) (nb := 2) (cores := 3) (by omega) (by omega)
    (fun l => if l.1 = .a ∧ 2 ≤ l.2 % 7 ∧ l.2 % 7 ≤ 4 then 1 else 0)
  refine ⟨_, mem', ⟨?_, by omega, by omega⟩, by simp [bandAddr], by simp [bandAddr], h⟩
  intro r c hr hc hw hb
  simp only [if_true] at hw
  unfold BrdBand at hb
  simp only [if_true] at hb
  unfold bandAddr
  simp only [if_true, true_and]
  rw [if_neg]
  omega

end

end Verif.Props

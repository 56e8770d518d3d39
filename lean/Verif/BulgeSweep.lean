/-
A sweep of the bulge chasing removes one row and column of the band, and keeps the rest in shape.
-/
import Verif.BulgeMath

namespace Verif.Bulge

open Verif.Sched Verif.Tile Verif.Fact Verif.Qr Finset Matrix

set_option linter.unusedSectionVars false

universe v

/-- Where an upper band matrix may be non-zero after `t` sweeps: `t` rows are bidiagonal, and every sweep leaves a bulge behind. -/
def Pat (nb t r c : Nat) : Prop :=
  (r < t ∧ (c = r ∨ c = r + 1)) ∨ ∃ q i, i < nb ∧ r = t + q * nb + i ∧ (i = 0 → r ≤ c ∧ c ≤ r + nb) ∧
    (0 < i → t + q * nb + 1 ≤ c ∧ c ≤ t + q * nb + 2 * nb - 1)

/-- Inside sweep `s`, when block row `D` is next. -/
def Mid (nb s D r c : Nat) : Prop :=
  (r < D ∧ Pat nb s r c) ∨ (D ≤ r ∧ r < D + nb ∧ D ≤ c ∧ c ≤ D + 2 * nb - 1) ∨ (D + nb ≤ r ∧ Pat nb (s - 1) r c)

theorem mulc (nb q q' : Nat) : q * nb + nb ≤ q' * nb ∨ q = q' ∨ q' * nb + nb ≤ q * nb := by
  rcases Nat.lt_trichotomy q q' with h | h | h
  · left
    have := Nat.mul_le_mul_right nb (show q + 1 ≤ q' by omega)
    rwa [Nat.add_mul, Nat.one_mul] at this
  · exact Or.inr (Or.inl h)
  · right; right
    have := Nat.mul_le_mul_right nb (show q' + 1 ≤ q by omega)
    rwa [Nat.add_mul, Nat.one_mul] at this

section
variable {nb s q r c : Nat}

theorem pat_band (hnb : 0 < nb) (h : r ≤ c ∧ c ≤ r + nb) : Pat nb 0 r c := by
  refine Or.inr ⟨r / nb, r % nb, Nat.mod_lt _ hnb, ?_, ?_, ?_⟩
  · rw [Nat.zero_add, Nat.mul_comm]; exact (Nat.div_add_mod r nb).symm
  · intro _; exact h
  · intro hi
    have h1 := Nat.div_add_mod r nb
    have h2 := Nat.mod_lt r hnb
    rw [Nat.mul_comm] at h1
    omega

theorem pat_end {n : Nat} (hr : r < n) (hc : c < n) (h : Pat nb (n - 1) r c) : c = r ∨ c = r + 1 := by
  rcases h with ⟨_, h⟩ | ⟨q, i, hi, e, h0, h1⟩
  · exact h
  · have := h0 (by omega)
    omega

theorem pat_blk (hs : 1 ≤ s) (h : Pat nb (s - 1) r c) (h1 : s + q * nb ≤ r) (h2 : r < s + q * nb + nb) :
    s + q * nb ≤ c ∧ c ≤ s + q * nb + 2 * nb - 1 := by
  rcases h with ⟨h, _⟩ | ⟨q', i, hi, e, g0, g1⟩
  · omega
  · have h3 := mulc nb q' q
    rcases Nat.eq_zero_or_pos i with h0 | h0
    · have := g0 h0
      rcases h3 with h3 | rfl | h3 <;> omega
    · have := g1 h0
      rcases h3 with h3 | rfl | h3
      · omega
      · omega
      · rcases mulc nb (q + 1) q' with h4 | rfl | h4
        · rw [Nat.add_mul] at h4; omega
        · rw [Nat.add_mul] at *; omega
        · rw [Nat.add_mul] at h4; omega

theorem pat_after (hs : 1 ≤ s) (h : Pat nb (s - 1) r c) (h1 : s + q * nb + nb ≤ r) : s + q * nb + nb ≤ c := by
  rcases h with ⟨h, _⟩ | ⟨q', i, hi, e, g0, g1⟩
  · omega
  · rcases Nat.eq_zero_or_pos i with h0 | h0
    · have := g0 h0
      omega
    · have := g1 h0
      rcases mulc nb q' (q + 1) with h4 | rfl | h4
      · rw [Nat.add_mul] at h4; omega
      · rw [Nat.add_mul] at *; omega
      · rw [Nat.add_mul] at h4; omega

theorem pat_before (hnb : 0 < nb) (h : Pat nb s r c) (h1 : r < s + q * nb) : c < s + q * nb + nb := by
  rcases h with ⟨h, hc⟩ | ⟨q', i, hi, e, g0, g1⟩
  · omega
  · have h3 := mulc nb q' q
    rcases Nat.eq_zero_or_pos i with h0 | h0
    · have := g0 h0
      omega
    · have := g1 h0
      rcases h3 with h3 | rfl | h3 <;> omega

theorem pat_row (hnb : 0 < nb) (h : r = s + q * nb) (h1 : r ≤ c) (h2 : c ≤ r + nb) : Pat nb s r c :=
  Or.inr ⟨q, 0, hnb, by omega, fun _ => ⟨h1, h2⟩, fun h => by omega⟩

theorem pat_in (h0 : s + q * nb < r) (h : r < s + q * nb + nb) (h1 : s + q * nb < c) (h2 : c ≤ s + q * nb + 2 * nb - 1) : Pat nb s r c :=
  Or.inr ⟨q, r - (s + q * nb), by omega, by omega, fun h => by omega, fun _ => ⟨by omega, h2⟩⟩

end

section
variable {𝕜 : Type v} [RCLike 𝕜] {n nb h s q : Nat} {S X : Store CM 𝕜}

/-- Zero outside of a pattern. -/
def Zout (n : Nat) (R : Nat → Nat → Prop) (X : Store CM 𝕜) : Prop := ∀ r c, r < n → c < n → ¬ R r c → X .a r c = 0

/-- The first `k` rows and columns are real, except for the first element. -/
def RealTo (k : Nat) (X : Store CM 𝕜) : Prop := ∀ r, 1 ≤ r → r ≤ k → star (X .a r r) = X .a r r ∧ star (X .a (r - 1) r) = X .a (r - 1) r

theorem first_step (hnb : 0 < nb) (hs : 1 ≤ s) (hsn : s < n) (hz : Zout n (Pat nb (s - 1)) S) :
    (∀ i j, i < n → ¬ (s - 1 ≤ i ∧ i ≤ s - 1 + (min (s + nb - 1) (n - 1) + 1 - s)) → s ≤ j → j < s + (min (s + nb - 1) (n - 1) + 1 - s) →
      S .a i j = 0) ∧
    Zout n (Mid nb s s) (Rst h (s - 1) s (min (s + nb - 1) (n - 1) + 1 - s) (min (s + nb - 1) (n - 1) + 1 - s) S) := by
  obtain ⟨l, hl⟩ : ∃ l, min (s + nb - 1) (n - 1) + 1 - s = l := ⟨_, rfl⟩
  rw [hl]
  have hl0 : 0 < l := by omega
  have hln : s + l ≤ n := by omega
  have hl1 : l = nb ∨ (l < nb ∧ s + l = n) := by omega
  have hlnb : l ≤ nb := by omega
  clear hl
  constructor
  · refine fun i j hi him h1 h2 => hz i j hi (by omega) fun hp => ?_
    rcases Nat.lt_or_ge i (s - 1) with h3 | h3
    · rcases hp with ⟨_, hp⟩ | ⟨q, k, _, e, _⟩
      · omega
      · omega
    · have h4 : s + 0 * nb + nb ≤ i := by omega
      have := pat_after hs hp h4
      omega
  · intro r c hr hc hm
    by_cases hin : s - 1 ≤ r ∧ r ≤ s - 1 + l ∧ s ≤ c ∧ c < s + l
    · rcases Nat.lt_or_ge r s with h1 | h1
      · obtain rfl : r = s - 1 := by omega
        rcases Nat.lt_or_ge s c with h2 | h2
        · exact (Rst_row hl0).2 c h2 hin.2.2.2
        · exact absurd (Or.inl ⟨by omega, Or.inl ⟨by omega, Or.inr (by omega)⟩⟩) hm
      · exact absurd (Or.inr (Or.inl ⟨h1, by omega, by omega, by omega⟩)) hm
    · rw [Rst_out hin hl0]
      refine hz r c hr hc fun hp => hm ?_
      rcases Nat.lt_or_ge r s with h1 | h1
      · refine Or.inl ⟨h1, Or.inl ⟨h1, ?_⟩⟩
        rcases hp with ⟨_, hp⟩ | ⟨q, i, _, e, h0, h2⟩
        · exact hp
        · have hi0 : i = 0 := by omega
          have := h0 hi0
          omega
      · rcases Nat.lt_or_ge r (s + nb) with h2 | h2
        · have := pat_blk (q := 0) hs hp (by omega) (by omega)
          exact Or.inr (Or.inl ⟨h1, h2, by omega, by omega⟩)
        · exact Or.inr (Or.inr ⟨h2, hp⟩)

/-- The transformation from the left inside a sweep. -/
theorem left_step {D l m : Nat} (hnb : 0 < nb) (hDn : D < n) (hl : l = min nb (n - D)) (hm : D + m = min (D + 2 * nb - 1) (n - 1))
    (hz : Zout n (Mid nb s D) X) :
    (∀ i j, j < n → ¬ (D ≤ j ∧ j ≤ D + m) → D ≤ i → i < D + l → X .a i j = 0) ∧
    Zout n (fun r c => Mid nb s D r c ∧ (D < r → r < D + nb → c ≠ D)) (Lst h D D l m X) := by
  have hl0 : 0 < l := by omega
  constructor
  · refine fun i j hj hjm h1 h2 => hz i j (by omega) hj fun hp => ?_
    rcases hp with ⟨h3, _⟩ | ⟨_, _, _, _⟩ | ⟨h3, _⟩ <;> omega
  · intro r c hr hc hp
    by_cases hin : D ≤ c ∧ c ≤ D + m ∧ D ≤ r ∧ r < D + l
    · rcases Nat.lt_or_ge D c with h1 | h1
      · exact absurd ⟨Or.inr (Or.inl ⟨by omega, by omega, by omega, by omega⟩), fun _ _ => by omega⟩ hp
      · obtain rfl : c = D := by omega
        rcases Nat.lt_or_ge c r with h2 | h2
        · exact (Lst_col hl0).2 r h2 hin.2.2.2
        · exact absurd ⟨Or.inr (Or.inl ⟨by omega, by omega, by omega, by omega⟩), fun _ _ => by omega⟩ hp
    · rw [Lst_out hin hl0]
      refine hz r c hr hc fun hq => hp ⟨hq, fun h1 h2 h3 => hin ?_⟩
      omega

/-- The transformation from the right inside a sweep. -/
theorem right_step {l m : Nat} (hs : 1 ≤ s) (hnb : 2 ≤ nb) (hDn : s + q * nb + nb + 1 < n) (hl : s + q * nb + nb + l = min (s + q * nb + 2 * nb) n)
    (hm : s + q * nb + m = min (s + q * nb + 2 * nb - 1) (n - 1))
    (hz : Zout n (fun r c => Mid nb s (s + q * nb) r c ∧ (s + q * nb < r → r < s + q * nb + nb → c ≠ s + q * nb)) X) :
    (∀ i j, i < n → ¬ (s + q * nb ≤ i ∧ i ≤ s + q * nb + m) → s + q * nb + nb ≤ j → j < s + q * nb + nb + l → X .a i j = 0) ∧
    Zout n (Mid nb s (s + (q + 1) * nb)) (Rst h (s + q * nb) (s + q * nb + nb) l m X) := by
  have hl0 : 0 < l := by omega
  have eD : s + (q + 1) * nb = s + q * nb + nb := by rw [Nat.add_mul]; omega
  have hA : ∀ r c, Pat nb (s - 1) r c → s + q * nb + nb ≤ r → r < s + q * nb + nb + nb → s + q * nb + nb ≤ c ∧ c ≤ s + q * nb + nb + 2 * nb - 1 := by
    intro r c hp h1 h2
    have := pat_blk (q := q + 1) hs hp (by omega) (by omega)
    omega
  have hB : ∀ r c, Pat nb (s - 1) r c → s + q * nb + nb + nb ≤ r → s + q * nb + nb + nb ≤ c := by
    intro r c hp h1
    have := pat_after (q := q + 1) hs hp (by omega)
    omega
  have hC : ∀ r c, Pat nb s r c → r < s + q * nb → c < s + q * nb + nb := fun r c hp h1 => pat_before (by omega) hp h1
  have hR : ∀ c, s + q * nb ≤ c → c ≤ s + q * nb + nb → Pat nb s (s + q * nb) c := fun c h1 h2 => pat_row (by omega) rfl h1 h2
  have hI : ∀ r c, s + q * nb < r → r < s + q * nb + nb → s + q * nb < c → c ≤ s + q * nb + 2 * nb - 1 → Pat nb s r c :=
    fun r c h1 h2 h3 h4 => pat_in h1 h2 h3 h4
  rw [eD]
  clear eD
  generalize s + q * nb = D at *
  constructor
  · refine fun i j hi him h1 h2 => hz i j hi (by omega) fun hp => ?_
    rcases hp.1 with ⟨h3, hp⟩ | ⟨_, _, _, _⟩ | ⟨h3, hp⟩
    · have := hC _ _ hp h3
      omega
    · omega
    · have := hB i j hp (by omega)
      omega
  · intro r c hr hc hm'
    by_cases hin : D ≤ r ∧ r ≤ D + m ∧ D + nb ≤ c ∧ c < D + nb + l
    · rcases Nat.eq_or_lt_of_le hin.1 with rfl | h1
      · rcases Nat.eq_or_lt_of_le hin.2.2.1 with h2 | h2
        · exact absurd (Or.inl ⟨by omega, hR c (by omega) (by omega)⟩) hm'
        · exact (Rst_row hl0).2 c h2 hin.2.2.2
      · rcases Nat.lt_or_ge r (D + nb) with h2 | h2
        · exact absurd (Or.inl ⟨h2, hI r c h1 h2 (by omega) (by omega)⟩) hm'
        · exact absurd (Or.inr (Or.inl ⟨h2, by omega, by omega, by omega⟩)) hm'
    · rw [Rst_out hin hl0]
      refine hz r c hr hc fun hp => hm' ?_
      obtain ⟨hp, hp'⟩ := hp
      rcases hp with ⟨h3, hp⟩ | ⟨h3, h4, h5, h6⟩ | ⟨h3, hp⟩
      · exact Or.inl ⟨by omega, hp⟩
      · rcases Nat.eq_or_lt_of_le h3 with rfl | h7
        · exact Or.inl ⟨h4, hR c h5 (by omega)⟩
        · exact Or.inl ⟨h4, hI r c h7 h4 (by have := hp' h7 h4; omega) h6⟩
      · rcases Nat.lt_or_ge r (D + nb + nb) with h7 | h7
        · have := hA r c hp h3 h7
          exact Or.inr (Or.inl ⟨h3, h7, by omega, by omega⟩)
        · exact Or.inr (Or.inr ⟨h7, hp⟩)

/-- For `nb = 1` there is no transformation from the right. -/
theorem mid_one (hs : 1 ≤ s) (hz : Zout n (fun r c => Mid 1 s (s + q * 1) r c ∧ (s + q * 1 < r → r < s + q * 1 + 1 → c ≠ s + q * 1)) X) :
    Zout n (Mid 1 s (s + (q + 1) * 1)) X := by
  intro r c hr hc hm
  refine hz r c hr hc fun ⟨hp, _⟩ => hm ?_
  rcases hp with ⟨h3, hp⟩ | ⟨h3, h4, h5, h6⟩ | ⟨h3, hp⟩
  · exact Or.inl ⟨by omega, hp⟩
  · exact Or.inl ⟨by omega, pat_row (q := q) (by omega) (by omega) (by omega) (by omega)⟩
  · rcases Nat.lt_or_ge r (s + (q + 1) * 1 + 1) with h7 | h7
    · have := pat_blk (q := q + 1) hs hp (by omega) (by omega)
      exact Or.inr (Or.inl ⟨by omega, h7, by omega, by omega⟩)
    · exact Or.inr (Or.inr ⟨h7, hp⟩)

/-- At the end of the sweep. -/
theorem last_step (hs : 1 ≤ s) (hnb : 0 < nb) (hDn : n ≤ s + q * nb + nb + 1)
    (hz : Zout n (fun r c => Mid nb s (s + q * nb) r c ∧ (s + q * nb < r → r < s + q * nb + nb → c ≠ s + q * nb)) X) :
    Zout n (Pat nb s) X := by
  intro r c hr hc hm
  refine hz r c hr hc fun ⟨hp, hp'⟩ => hm ?_
  rcases hp with ⟨h3, hp⟩ | ⟨h3, h4, h5, h6⟩ | ⟨h3, hp⟩
  · exact hp
  · rcases Nat.eq_or_lt_of_le h3 with h7 | h7
    · exact pat_row hnb h7.symm (by omega) (by omega)
    · exact pat_in h7 h4 (by have := hp' h7 h4; omega) h6
  · have := pat_after hs hp h3
    exact pat_row (q := q + 1) hnb (by rw [Nat.add_mul]; omega) (by omega) (by omega)

/-! ### A sweep as a sequence of full transformations -/

/-- The transformations of sweep `s` before the left one of pair `q`. -/
noncomputable def Tq (n nb h s : Nat) : Nat → Store CM 𝕜 → Store CM 𝕜
  | 0, S => Rst h (s - 1) s (min (s + nb - 1) (n - 1) + 1 - s) (min (s + nb - 1) (n - 1) + 1 - s) S
  | q + 1, S =>
    let X := Lst h (s + q * nb) (s + q * nb) (min nb (n - (s + q * nb))) (min (s + q * nb + 2 * nb - 1) (n - 1) - (s + q * nb)) (Tq n nb h s q S)
    if 2 ≤ nb then Rst h (s + q * nb) (s + q * nb + nb) (min (s + q * nb + 2 * nb) n - (s + q * nb + nb))
      (min (s + q * nb + 2 * nb - 1) (n - 1) - (s + q * nb)) X else X

/-- The whole sweep, `q` the number of its last pair. -/
noncomputable def Sw (n nb h s q : Nat) (S : Store CM 𝕜) : Store CM 𝕜 :=
  Lst h (s + q * nb) (s + q * nb) (min nb (n - (s + q * nb))) (min (s + q * nb + 2 * nb - 1) (n - 1) - (s + q * nb)) (Tq n nb h s q S)

/-- What holds before the left transformation of pair `q`. -/
theorem Tq_spec (hnb : 0 < nb) (hs : 1 ≤ s) (hsn : s < n) (hz : Zout n (Pat nb (s - 1)) S) :
    ∀ q, (0 < q → s + (q - 1) * nb + nb + 1 < n) → UEq (mat n n (S .a)) (mat n n (Tq n nb h s q S .a)) ∧
      Zout n (Mid nb s (s + q * nb)) (Tq n nb h s q S)
  | 0, _ => by
    obtain ⟨h1, h2⟩ := first_step (h := h) hnb hs hsn hz
    refine ⟨Rst_ueq (by omega) (by omega) h1, ?_⟩
    rw [Nat.zero_mul, Nat.add_zero]
    exact h2
  | q + 1, hq => by
    have hq := hq (by omega)
    rw [Nat.add_sub_cancel] at hq
    obtain ⟨h1, h2⟩ := Tq_spec hnb hs hsn hz q (fun h0 => by
      have : (q - 1) * nb + nb = q * nb := by rw [← Nat.succ_mul]; congr 1; omega
      omega)
    obtain ⟨h3, h4⟩ := left_step (h := h) (D := s + q * nb) (l := min nb (n - (s + q * nb)))
      (m := min (s + q * nb + 2 * nb - 1) (n - 1) - (s + q * nb)) hnb (by omega) rfl (by omega) h2
    unfold Tq
    by_cases h2nb : 2 ≤ nb
    · simp only [if_pos h2nb]
      obtain ⟨h5, h6⟩ := right_step (h := h) (l := min (s + q * nb + 2 * nb) n - (s + q * nb + nb))
        (m := min (s + q * nb + 2 * nb - 1) (n - 1) - (s + q * nb)) hs h2nb hq (by omega) (by omega) h4
      exact ⟨(h1.trans (Lst_ueq (by omega) (by omega) h3)).trans (Rst_ueq (by omega) (by omega) h5), h6⟩
    · simp only [if_neg h2nb]
      obtain rfl : nb = 1 := by omega
      exact ⟨h1.trans (Lst_ueq (by omega) (by omega) h3), mid_one hs h4⟩

/-- The real entries, and the first element. -/
theorem Tq_real (hnb : 0 < nb) (hs : 1 ≤ s) (hsn : s < n) (hr : RealTo (s - 1) S) :
    ∀ q, (0 < q → s + (q - 1) * nb + nb + 1 < n) → Tq n nb h s q S .a 0 0 = S .a 0 0 ∧ RealTo (s - 1) (Tq n nb h s q S) ∧
      star (Tq n nb h s q S .a (s - 1) s) = Tq n nb h s q S .a (s - 1) s ∧
      (0 < q → star (Tq n nb h s q S .a s s) = Tq n nb h s q S .a s s)
  | 0, _ => by
    have hl : 0 < min (s + nb - 1) (n - 1) + 1 - s := by omega
    unfold Tq
    refine ⟨Rst_out (by omega) hl, fun r h1 h2 => ?_, (Rst_row hl).1, fun h0 => by omega⟩
    rw [Rst_out (by omega) hl, Rst_out (by omega) hl]
    exact hr r h1 h2
  | q + 1, hq => by
    have hq := hq (by omega)
    rw [Nat.add_sub_cancel] at hq
    obtain ⟨h1, h2, h3, h4⟩ := Tq_real hnb hs hsn hr q (fun h0 => by
      have : (q - 1) * nb + nb = q * nb := by rw [← Nat.succ_mul]; congr 1; omega
      omega)
    have key : ∀ Y : Store CM 𝕜, (∀ i j, (i < s ∨ j < s) → Y .a i j = Tq n nb h s q S .a i j) → star (Y .a s s) = Y .a s s →
        Y .a 0 0 = S .a 0 0 ∧ RealTo (s - 1) Y ∧ star (Y .a (s - 1) s) = Y .a (s - 1) s ∧ (0 < q + 1 → star (Y .a s s) = Y .a s s) := by
      intro Y hY hss
      refine ⟨by rw [hY 0 0 (by omega), h1], fun r k1 k2 => ?_, by rw [hY _ _ (by omega), h3], fun _ => hss⟩
      rw [hY r r (by omega), hY (r - 1) r (by omega)]
      exact h2 r k1 k2
    have hl : 0 < min nb (n - (s + q * nb)) := by omega
    have hL : ∀ i j, (i < s ∨ j < s) → Lst h (s + q * nb) (s + q * nb) (min nb (n - (s + q * nb)))
        (min (s + q * nb + 2 * nb - 1) (n - 1) - (s + q * nb)) (Tq n nb h s q S) .a i j = Tq n nb h s q S .a i j :=
      fun i j hij => Lst_out (by omega) hl
    have hss : star (Lst h (s + q * nb) (s + q * nb) (min nb (n - (s + q * nb)))
        (min (s + q * nb + 2 * nb - 1) (n - 1) - (s + q * nb)) (Tq n nb h s q S) .a s s) = Lst h (s + q * nb) (s + q * nb)
        (min nb (n - (s + q * nb))) (min (s + q * nb + 2 * nb - 1) (n - 1) - (s + q * nb)) (Tq n nb h s q S) .a s s := by
      rcases Nat.eq_zero_or_pos q with rfl | h0
      · rw [Nat.zero_mul, Nat.add_zero] at hl ⊢
        exact (Lst_col hl).1
      · have : 0 < q * nb := Nat.mul_pos h0 hnb
        rw [Lst_out (by omega) hl]
        exact h4 h0
    unfold Tq
    by_cases h2nb : 2 ≤ nb
    · simp only [if_pos h2nb]
      have hl' : 0 < min (s + q * nb + 2 * nb) n - (s + q * nb + nb) := by omega
      refine key _ (fun i j hij => ?_) ?_
      · rw [Rst_out (by omega) hl']
        exact hL i j hij
      · rw [Rst_out (by omega) hl']
        exact hss
    · simp only [if_neg h2nb]
      exact key _ hL hss

/-- **One sweep.** -/
theorem Sw_spec (hnb : 0 < nb) (hs : 1 ≤ s) (hsn : s < n) (hz : Zout n (Pat nb (s - 1)) S) (hr : RealTo (s - 1) S)
    (h0 : 0 < q → s + (q - 1) * nb + nb + 1 < n) (hDn : s + q * nb < n) (hq : n ≤ s + q * nb + nb + 1) :
    UEq (mat n n (S .a)) (mat n n (Sw n nb h s q S .a)) ∧ Zout n (Pat nb s) (Sw n nb h s q S) ∧ RealTo s (Sw n nb h s q S) ∧
    Sw n nb h s q S .a 0 0 = S .a 0 0 := by
  obtain ⟨h1, h2⟩ := Tq_spec (h := h) hnb hs hsn hz q h0
  obtain ⟨r1, r2, r3, r4⟩ := Tq_real (h := h) hnb hs hsn hr q h0
  have hl : 0 < min nb (n - (s + q * nb)) := by omega
  obtain ⟨h3, h4⟩ := left_step (h := h) (D := s + q * nb) (l := min nb (n - (s + q * nb)))
      (m := min (s + q * nb + 2 * nb - 1) (n - 1) - (s + q * nb)) hnb hDn rfl (by omega) h2
  refine ⟨h1.trans (Lst_ueq (by omega) (by omega) h3), last_step hs hnb hq h4, fun r k1 k2 => ?_, ?_⟩
  · unfold Sw
    rcases Nat.eq_or_lt_of_le k2 with rfl | k3
    · refine ⟨?_, ?_⟩
      · rcases Nat.eq_zero_or_pos q with rfl | hq0
        · rw [Nat.zero_mul, Nat.add_zero] at hl ⊢
          exact (Lst_col hl).1
        · have : 0 < q * nb := Nat.mul_pos hq0 hnb
          rw [Lst_out (by omega) hl]
          exact r4 hq0
      · rw [Lst_out (by omega) hl]
        exact r3
    · rw [Lst_out (by omega) hl, Lst_out (by omega) hl]
      exact r2 r k1 (by omega)
  · unfold Sw
    rw [Lst_out (by omega) hl]
    exact r1

end

end Verif.Bulge

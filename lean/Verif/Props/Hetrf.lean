/-
Properties of the drivers for Hermitian indefinite systems: C75, C76.
-/
import Verif.Props.Gbmm
import Verif.Props.Context
import Verif.ArgCheck

namespace Verif.Props

open Verif.Context Verif.ArgCheck Verif.Desc

/-- New value of `plasma->max_panel_threads` (compute/zhetrf.c:129-136, compute/zhesv.c:135-142). -/
def hePanel (p : Int) : Int := max 1 (p - if p > 3 then 2 else 1)

/-- The context after the adjustment (compute/zhetrf.c:136, compute/zhesv.c:142). -/
def heCtx (g : G) : G := { g with ctx := { g.ctx with panel := hePanel g.ctx.panel } }

/-- The part of `plasma_zhetrf` up to the creation of the descriptors `A` and `T` (compute/zhetrf.c:96-158): return value,
whether the call goes on, and the context.  Tuning is off or not compiled in (control/tuning.c:256-263); allocations succeed;
the workspace `W`, whose dimensions are positive, is not modelled. -/
def zhetrfPre (uplo n lda ldt : Int) (g : G) : (Int × Bool) × G :=
  if ¬ g.initialized then ((notInitialized, false), g) else
  if zhetrfArgs uplo n lda ≠ 0 then ((zhetrfArgs uplo n lda, false), g) else
  if max n 0 = 0 then ((0, false), g) else
  match triangularCreate true true 5 .lower g.ctx.nb g.ctx.nb n n 0 0 n n with
  | .err e => ((e, false), heCtx g)
  | .ub => ((0, false), heCtx g)
  | .ok _ =>
    match bandCreate true true 5 .general g.ctx.nb g.ctx.nb ldt n 0 0 n n g.ctx.nb g.ctx.nb with
    | .err e => ((e, false), heCtx g)
    | .ub => ((0, false), heCtx g)
    | .ok _ => ((0, true), heCtx g)

/-- `lm` in `plasma_zhesv` and `plasma_zhetrs` (compute/zhesv.c:151-155, compute/zhetrs.c:136-140). -/
def heRows (nb : Int) : Int := ((nb + nb + nb - 1).tdiv nb + (nb + nb - 1).tdiv nb + 1) * nb

/-- The same part of `plasma_zhesv` (compute/zhesv.c:95-175). -/
def zhesvPre (uplo n nrhs lda ldb : Int) (g : G) : (Int × Bool) × G :=
  if ¬ g.initialized then ((notInitialized, false), g) else
  if zhesvArgs uplo n nrhs lda ldb ≠ 0 then ((zhesvArgs uplo n nrhs lda ldb, false), g) else
  if max n nrhs = 0 then ((0, false), g) else
  match triangularCreate true true 5 .lower g.ctx.nb g.ctx.nb n n 0 0 n n with
  | .err e => ((e, false), heCtx g)
  | .ub => ((0, false), heCtx g)
  | .ok _ =>
    match bandCreate true true 5 .general g.ctx.nb g.ctx.nb (heRows g.ctx.nb) n 0 0 n n g.ctx.nb g.ctx.nb with
    | .err e => ((e, false), heCtx g)
    | .ub => ((0, false), heCtx g)
    | .ok _ => ((0, true), heCtx g)

theorem tri_ok {nb n : Int} (hnb : 0 < nb) (hn : 0 ≤ n) :
    ∃ A, triangularCreate true true 5 .lower nb nb n n 0 0 n n = .ok A := by
  refine ⟨triangularInit 5 .lower nb nb n n 0 0 n n, ?_⟩
  unfold triangularCreate
  have hc : check (triangularInit 5 .lower nb nb n n 0 0 n n) = true := by
    show generalCheck _ = true
    unfold generalCheck triangularInit generalInit precOK
    simp
    omega
  rw [if_neg (by simp), if_neg (by omega)]
  simp [hc]

theorem he_band {nb n ldt : Int} (hnb : 0 < nb) (hn : 0 ≤ n) :
    (nb < n ∧ 4 * nb ≤ ldt → ∃ A, bandCreate true true 5 .general nb nb ldt n 0 0 n n nb nb = .ok A ∧ generalAlloc A = ldt * n) ∧
    (¬ (nb < n ∧ 4 * nb ≤ ldt) → bandCreate true true 5 .general nb nb ldt n 0 0 n n nb nb = .err errIllegalValue) := by
  have e4 : (2 * nb + nb + nb).tdiv nb = 4 := by
    rw [show 2 * nb + nb + nb = 4 * nb by omega]
    exact Int.mul_tdiv_cancel _ (by omega)
  have key : check (bandInit 5 .general nb nb ldt n 0 0 n n nb nb) = decide (nb < n ∧ 4 * nb ≤ ldt) := by
    show bandCheck _ = _
    unfold bandCheck bandInit generalInit precOK
    simp only [e4]
    by_cases h : nb < n ∧ 4 * nb ≤ ldt
    · simp [h]
      omega
    · simp [h]
      intros
      omega
  constructor
  · intro h
    refine ⟨bandInit 5 .general nb nb ldt n 0 0 n n nb nb, ?_, rfl⟩
    unfold bandCreate
    rw [if_neg (by simp), if_neg (by omega)]
    simp [key, h]
  · intro h
    unfold bandCreate
    rw [if_neg (by simp), if_neg (by omega)]
    simp only [key, decide_eq_false h]
    simp

theorem heRows_eq {nb : Int} (hnb : 0 < nb) : heRows nb = 4 * nb := by
  unfold heRows
  have e1 : (nb + nb + nb - 1).tdiv nb = 2 := by
    rw [Int.tdiv_eq_ediv_of_nonneg (by omega)]
    refine (Int.ediv_eq_iff_of_pos hnb).mpr ⟨by omega, by omega⟩
  have e2 : (nb + nb - 1).tdiv nb = 1 := by
    rw [Int.tdiv_eq_ediv_of_nonneg (by omega)]
    refine (Int.ediv_eq_iff_of_pos hnb).mpr ⟨by omega, by omega⟩
  rw [e1, e2]
  omega

theorem zhetrfPre_eq {uplo n lda ldt : Int} {g : G} (hi : g.initialized = true) (hnb : 0 < g.ctx.nb)
    (ha : zhetrfArgs uplo n lda = 0) (hn : 0 < n) :
    zhetrfPre uplo n lda ldt g = (if g.ctx.nb < n ∧ 4 * g.ctx.nb ≤ ldt then (0, true) else (errIllegalValue, false), heCtx g) := by
  unfold zhetrfPre
  obtain ⟨A, hA⟩ := tri_ok (nb := g.ctx.nb) (n := n) hnb (by omega)
  rw [if_neg (by simp [hi]), if_neg (by simp [ha]), if_neg (by omega), hA]
  simp only
  by_cases h : g.ctx.nb < n ∧ 4 * g.ctx.nb ≤ ldt
  · obtain ⟨T, hT, -⟩ := (he_band (n := n) (ldt := ldt) hnb (by omega)).1 h
    rw [hT, if_pos h]
  · rw [(he_band (n := n) (ldt := ldt) hnb (by omega)).2 h, if_neg h]

theorem zhesvPre_eq {uplo n nrhs lda ldb : Int} {g : G} (hi : g.initialized = true) (hnb : 0 < g.ctx.nb)
    (ha : zhesvArgs uplo n nrhs lda ldb = 0) (hn : 0 < n) :
    zhesvPre uplo n nrhs lda ldb g = (if g.ctx.nb < n then (0, true) else (errIllegalValue, false), heCtx g) := by
  unfold zhesvPre
  obtain ⟨A, hA⟩ := tri_ok (nb := g.ctx.nb) (n := n) hnb (by omega)
  rw [if_neg (by simp [hi]), if_neg (by simp [ha]), if_neg (by omega), hA]
  simp only
  have hb := he_band (n := n) (ldt := heRows g.ctx.nb) hnb (by omega)
  rw [heRows_eq hnb] at hb ⊢
  by_cases h : g.ctx.nb < n
  · obtain ⟨T, hT, -⟩ := hb.1 ⟨h, le_refl _⟩
    rw [hT, if_pos h]
  · rw [hb.2 (fun hh => h hh.1), if_neg h]

/-- **C75, refuted.** Every call of `plasma_zhetrf` or `plasma_zhesv` with legal arguments and `n > 0` makes the number of panel
threads that `plasma_get` reports smaller, until it is one. -/
theorem C75_panel_refuted {uplo n nrhs lda ldt ldb p : Int} {g : G} (hi : g.initialized = true) (hnb : 0 < g.ctx.nb) (hn : 0 < n)
    (hg : doGet pPanel g = (0, some p)) (hp : 2 ≤ p) :
    (zhetrfArgs uplo n lda = 0 → ∃ q, doGet pPanel (zhetrfPre uplo n lda ldt g).2 = (0, some q) ∧ 1 ≤ q ∧ q < p) ∧
    (zhesvArgs uplo n nrhs lda ldb = 0 → ∃ q, doGet pPanel (zhesvPre uplo n nrhs lda ldb g).2 = (0, some q) ∧ 1 ≤ q ∧ q < p) := by
  have e : g.ctx.panel = p := by
    unfold doGet at hg
    simpa [hi, pPanel, pTuning, pNb, pIb] using hg
  have hq : doGet pPanel (heCtx g) = (0, some (hePanel p)) := by
    unfold doGet heCtx
    simp [hi, pPanel, pTuning, pNb, pIb, e]
  have hb : 1 ≤ hePanel p ∧ hePanel p < p := by
    unfold hePanel
    split_ifs <;> omega
  refine ⟨fun ha => ⟨hePanel p, ?_, hb⟩, fun ha => ⟨hePanel p, ?_, hb⟩⟩
  · rw [zhetrfPre_eq hi hnb ha hn]
    exact hq
  · rw [zhesvPre_eq hi hnb ha hn]
    exact hq

/-- `k` calls of `plasma_zhetrf` one after the other. -/
def zhetrfRep (uplo n lda ldt : Int) (k : Nat) (g : G) : G := (fun g => (zhetrfPre uplo n lda ldt g).2)^[k] g

/-- **C75, histories.** After `p - 1` calls one panel thread is left, whatever the user had set. -/
theorem C75_history {uplo n lda ldt : Int} {g : G} (hi : g.initialized = true) (hnb : 0 < g.ctx.nb) (hn : 0 < n)
    (ha : zhetrfArgs uplo n lda = 0) {k : Nat} (hp : 1 ≤ g.ctx.panel) (hk : g.ctx.panel - 1 ≤ k) :
    doGet pPanel (zhetrfRep uplo n lda ldt k g) = (0, some 1) := by
  have key : ∀ (k : Nat) (g : G), g.initialized = true → 0 < g.ctx.nb → 1 ≤ g.ctx.panel → g.ctx.panel - 1 ≤ k →
      (zhetrfRep uplo n lda ldt k g).initialized = true ∧ (zhetrfRep uplo n lda ldt k g).ctx.panel = 1 := by
    intro k
    induction k with
    | zero => intro g h1 h2 h3 h4; exact ⟨h1, by show g.ctx.panel = 1; omega⟩
    | succ k ih =>
      intro g h1 h2 h3 h4
      have e : zhetrfRep uplo n lda ldt (k + 1) g = zhetrfRep uplo n lda ldt k (heCtx g) := by
        show (fun g => (zhetrfPre uplo n lda ldt g).2)^[k + 1] g = _
        rw [Function.iterate_succ_apply]
        show zhetrfRep uplo n lda ldt k (zhetrfPre uplo n lda ldt g).2 = _
        rw [zhetrfPre_eq h1 h2 ha hn]
      rw [e]
      refine ih (heCtx g) h1 h2 ?_ ?_
      · show 1 ≤ hePanel g.ctx.panel
        unfold hePanel; split_ifs <;> omega
      · show hePanel g.ctx.panel - 1 ≤ k
        unfold hePanel; split_ifs <;> omega
  obtain ⟨h1, h2⟩ := key k g hi hnb hp hk
  unfold doGet
  simp [h1, h2, pPanel, pTuning, pNb, pIb]

/-- **C75** (partial). The other parameters keep their values, so does the number of panel threads if it is one, and calls
with illegal arguments or `n = 0` change nothing.  Missing: the number of panel threads, see `C75_panel_refuted`. -/
theorem C75_partial {uplo n nrhs lda ldt ldb : Int} {g : G} (hi : g.initialized = true) :
    (∀ p, p ≠ pPanel → doGet p (zhetrfPre uplo n lda ldt g).2 = doGet p g ∧
      doGet p (zhesvPre uplo n nrhs lda ldb g).2 = doGet p g) ∧
    (g.ctx.panel = 1 → (zhetrfPre uplo n lda ldt g).2 = g) ∧
    (zhetrfArgs uplo n lda ≠ 0 ∨ n = 0 → (zhetrfPre uplo n lda ldt g).2 = g) := by
  have hpre : (zhetrfPre uplo n lda ldt g).2 = g ∨ (zhetrfPre uplo n lda ldt g).2 = heCtx g := by
    unfold zhetrfPre
    split_ifs
    any_goals exact Or.inl rfl
    · split
      · exact Or.inr rfl
      · exact Or.inr rfl
      · split <;> exact Or.inr rfl
  have hpre' : (zhesvPre uplo n nrhs lda ldb g).2 = g ∨ (zhesvPre uplo n nrhs lda ldb g).2 = heCtx g := by
    unfold zhesvPre
    split_ifs
    any_goals exact Or.inl rfl
    · split
      · exact Or.inr rfl
      · exact Or.inr rfl
      · split <;> exact Or.inr rfl
  refine ⟨fun p hp => ⟨?_, ?_⟩, fun h1 => ?_, fun h => ?_⟩
  · rcases hpre with e | e <;> rw [e]
    unfold doGet heCtx
    simp only [hp, if_false]
  · rcases hpre' with e | e <;> rw [e]
    unfold doGet heCtx
    simp only [hp, if_false]
  · rcases hpre with e | e <;> rw [e]
    unfold heCtx hePanel
    rw [h1]
    rcases g with ⟨i, t, nb, ib, p, hh⟩
    simp only at h1
    subst h1
    rfl
  · unfold zhetrfPre
    rw [if_neg (by simp [hi])]
    by_cases ha : zhetrfArgs uplo n lda = 0
    · rw [if_neg (by simp [ha]), if_pos (by omega)]
    · rw [if_pos ha]

/-- Eight panel threads, then three calls: two left after that, and one at the end. -/
example : let g := (history [.set false 4 8, .set false 1 2, .init false]).1
    zhetrfArgs Lower 5 5 = 0 ∧ doGet pPanel g = (0, some 8) ∧
    doGet pPanel (zhetrfRep Lower 5 5 8 1 g) = (0, some 6) ∧ doGet pPanel (zhetrfRep Lower 5 5 8 3 g) = (0, some 2) ∧
    doGet pPanel (zhetrfRep Lower 5 5 8 5 g) = (0, some 1) := by decide +kernel

/-- **C76, refuted.** Calls with legal arguments fail whenever the matrix is no larger than one tile. -/
theorem C76_small_refuted {uplo n nrhs lda ldt ldb : Int} {g : G} (hi : g.initialized = true) (hnb : 0 < g.ctx.nb) (hn : 0 < n)
    (hs : n ≤ g.ctx.nb) :
    (zhetrfArgs uplo n lda = 0 → (zhetrfPre uplo n lda ldt g).1 = (errIllegalValue, false)) ∧
    (zhesvArgs uplo n nrhs lda ldb = 0 → (zhesvPre uplo n nrhs lda ldb g).1 = (errIllegalValue, false)) := by
  constructor
  · intro ha
    rw [zhetrfPre_eq hi hnb ha hn, if_neg (by omega)]
  · intro ha
    rw [zhesvPre_eq hi hnb ha hn, if_neg (by omega)]

/-- **C76** (partial). Larger matrices are accepted, by `plasma_zhetrf` if `ldt ≥ 4*nb`.  Missing: matrices of at most one tile,
see `C76_small_refuted`. -/
theorem C76_accept_partial {uplo n nrhs lda ldt ldb : Int} {g : G} (hi : g.initialized = true) (hnb : 0 < g.ctx.nb)
    (hs : g.ctx.nb < n) :
    (zhetrfArgs uplo n lda = 0 → 4 * g.ctx.nb ≤ ldt → (zhetrfPre uplo n lda ldt g).1 = (0, true)) ∧
    (zhetrfArgs uplo n lda = 0 → ldt < 4 * g.ctx.nb → (zhetrfPre uplo n lda ldt g).1 = (errIllegalValue, false)) ∧
    (zhesvArgs uplo n nrhs lda ldb = 0 → (zhesvPre uplo n nrhs lda ldb g).1 = (0, true)) := by
  refine ⟨fun ha h4 => ?_, fun ha h4 => ?_, fun ha => ?_⟩
  · rw [zhetrfPre_eq hi hnb ha (by omega), if_pos ⟨hs, h4⟩]
  · rw [zhetrfPre_eq hi hnb ha (by omega), if_neg (by omega)]
  · rw [zhesvPre_eq hi hnb ha (by omega), if_pos hs]

/-- **C76, memory.** `plasma_zhesv` clears `ldt*n` elements of a `T` that it has allocated with `4*nb*n` elements
(compute/zhesv.c:165, 203): this stays inside the allocation exactly if the user's `ldt` is at most `4*nb`.  `plasma_zhetrf`
allocates `ldt*n` (compute/zhetrf.c:151-152, 178). -/
theorem C76_memset {nb n ldt : Int} (hnb : 0 < nb) (hn : nb < n) :
    (∃ T, bandCreate true true 5 .general nb nb (heRows nb) n 0 0 n n nb nb = .ok T ∧
      (ldt * n ≤ generalAlloc T ↔ ldt ≤ 4 * nb)) ∧
    (4 * nb ≤ ldt → ∃ T, bandCreate true true 5 .general nb nb ldt n 0 0 n n nb nb = .ok T ∧ ldt * n ≤ generalAlloc T) := by
  rw [heRows_eq hnb]
  constructor
  · obtain ⟨T, hT, e⟩ := (he_band (n := n) (ldt := 4 * nb) hnb (by omega)).1 ⟨hn, le_refl _⟩
    exact ⟨T, hT, by rw [e]; exact mul_le_mul_iff_of_pos_right (by omega)⟩
  · intro h
    obtain ⟨T, hT, e⟩ := (he_band (n := n) (ldt := ldt) hnb (by omega)).1 ⟨hn, h⟩
    exact ⟨T, hT, by rw [e]⟩

/-- With the default tile size of 256 every system of order up to 256 is refused. -/
example : let g := (history [.init false]).1
    zhesvArgs Lower 100 1 100 100 = 0 ∧ (zhesvPre Lower 100 1 100 100 g).1 = (-103, false) ∧
    (zhesvPre Lower 300 1 300 300 g).1 = (0, true) := by decide +kernel

end Verif.Props

/-
C40, C52, C55: library parameters and constant tables.
-/
import Verif.Context

namespace Verif.Props

open Verif.Context

/-- Documented default of a parameter. -/
def dflt (p : Int) : Option Int :=
  if p = 0 then some 1 else if p = 1 then some 256 else if p = 2 then some 64
  else if p = 4 then some 1 else if p = 5 then some 0 else none

/-- Specification of the value of parameter `p`, from the observable history only (most
recent call first): the last successful `set` since the last successful `init`, else the
default; nothing when the library is not initialised. -/
def specVal (p : Int) : List (Call × Int) → Option Int
  | [] => none
  | (.init _, r) :: h => if r = 0 then dflt p else specVal p h
  | (.finalize _, r) :: h => if r = 0 then none else specVal p h
  | (.set _ q v, r) :: h => if r = 0 ∧ q = p then some v else specVal p h
  | (.get _, _) :: h => specVal p h

/-- Whether the observable history leaves the library initialised. -/
def specInit : List (Call × Int) → Bool
  | [] => false
  | (.init _, r) :: h => if r = 0 then true else specInit h
  | (.finalize _, r) :: h => if r = 0 then false else specInit h
  | _ :: h => specInit h

/-- Values a parameter may take. -/
def legal (p v : Int) : Prop :=
  (p = 0 ∧ (v = 0 ∨ v = 1)) ∨ (p = 1 ∧ 0 < v) ∨ (p = 2 ∧ 0 < v) ∨ (p = 4 ∧ 0 < v) ∨
  (p = 5 ∧ (v = 0 ∨ v = 1))

theorem hist_init (cs : List Call) : (history cs).1.initialized = specInit (history cs).2 := by
  induction cs with
  | nil => rfl
  | cons c cs ih =>
    cases c with
    | init par =>
      simp only [history, call, doInit, specInit]
      split_ifs <;> simp_all [notInitialized]
    | finalize par =>
      simp only [history, call, doFinalize, specInit]
      split_ifs <;> simp_all [notInitialized, environment]
    | set par p v =>
      simp only [history, call, doSet, specInit]
      split_ifs <;> simp_all
    | get p => simpa only [history, call, specInit] using ih

theorem get_snd (p : Int) (g : G) (hg : g.initialized = true) : (doGet p g).2 =
    if p = 0 then some g.ctx.tuning else if p = 1 then some g.ctx.nb else if p = 2 then some g.ctx.ib
    else if p = 4 then some g.ctx.panel else if p = 5 then some g.ctx.house else none := by
  unfold doGet
  simp only [hg, pTuning, pNb, pIb, pPanel, pHouse]
  by_cases h0 : p = 0 <;> by_cases h1 : p = 1 <;> by_cases h2 : p = 2 <;> by_cases h4 : p = 4 <;>
    by_cases h5 : p = 5 <;> simp [h0, h1, h2, h4, h5] <;> omega

theorem set_ok (par : Bool) (p v : Int) (g : G) :
    ((doSet par p v g).1 = 0 ∧ g.initialized = true ∧ par = false ∧ legal p v ∧
      (doSet par p v g).2 = ⟨true, if p = 0 then { g.ctx with tuning := v } else if p = 1 then
        { g.ctx with nb := v } else if p = 2 then { g.ctx with ib := v } else if p = 4 then
        { g.ctx with panel := v } else { g.ctx with house := v }⟩) ∨
    ((doSet par p v g).1 ≠ 0 ∧ (doSet par p v g).2 = g ∧
      ¬ (g.initialized = true ∧ par = false ∧ legal p v)) := by
  unfold doSet legal
  simp only [pTuning, pNb, pIb, pPanel, pHouse, notInitialized, environment, illegalValue]
  rcases g with ⟨i, x⟩
  cases i <;> cases par <;> simp
  by_cases h0 : p = 0
  · subst h0; by_cases h : v = 1 <;> by_cases h' : v = 0 <;> simp_all
  by_cases h1 : p = 1
  · subst h1
    by_cases h : 0 < v
    · simp [h, Int.not_le.mpr h]
    · simp [h, Int.not_lt.mp h]
  by_cases h2 : p = 2
  · subst h2
    by_cases h : 0 < v
    · simp [h, Int.not_le.mpr h]
    · simp [h, Int.not_lt.mp h]
  by_cases h4 : p = 4
  · subst h4
    by_cases h : 0 < v
    · simp [h, Int.not_le.mpr h]
    · simp [h, Int.not_lt.mp h]
  by_cases h5 : p = 5
  · subst h5; by_cases h : v = 1 <;> by_cases h' : v = 0 <;> simp_all
  simp_all

theorem hist_val (p : Int) (cs : List Call) (hi : (history cs).1.initialized = true) :
    (doGet p (history cs).1).2 = specVal p (history cs).2 := by
  induction cs with
  | nil => simp [history, G.start] at hi
  | cons c cs ih =>
    cases c with
    | init par =>
      simp only [history, call, doInit, specVal] at hi ⊢
      split_ifs at hi ⊢ <;> simp_all [notInitialized]
      rw [get_snd p _ rfl]
      rfl
    | finalize par =>
      simp only [history, call, doFinalize, specVal] at hi ⊢
      split_ifs at hi ⊢ <;> simp_all [notInitialized, environment]
    | set par q v =>
      simp only [history, call, specVal] at hi ⊢
      rcases set_ok par q v (history cs).1 with ⟨h1, h2, _, h3, h4⟩ | ⟨h1, h2, _⟩
      · have ih := ih h2
        rw [h4, get_snd p _ rfl]
        rw [get_snd p _ h2] at ih
        simp only [h1, true_and]
        unfold legal at h3
        by_cases hq : q = p
        · subst hq
          rw [if_pos rfl]
          split_ifs <;> first | rfl | omega
        · rw [if_neg hq, ← ih]
          split_ifs <;> first | rfl | omega
      · rw [h2] at hi ⊢
        rw [if_neg (fun h => h1 h.1)]
        exact ih hi
    | get q => simpa only [history, call, specVal] using ih hi

/-- **C40.**  After any history of calls, made inside or outside parallel regions:
`plasma_get` reports `PlasmaErrorNotInitialized` exactly when the library is not
initialised; otherwise it returns the value the history prescribes (and rejects unknown
parameters); a call that returns an error changes nothing; `plasma_set` succeeds exactly
on legal values; every stored value is legal. -/
theorem C40_context (cs : List Call) :
    let g := (history cs).1
    let h := (history cs).2
    (∀ p, doGet p g = if specInit h = false then (-101, none)
      else match specVal p h with | some v => (0, some v) | none => (-103, none)) ∧
    (∀ c, (call c g).1 ≠ 0 → (call c g).2 = g) ∧
    (∀ p v, (doSet false p v g).1 = 0 ↔ specInit h = true ∧ legal p v) ∧
    (∀ p v, specVal p h = some v → legal p v) := by
  intro g h
  have hinit := hist_init cs
  refine ⟨?_, ?_, ?_, ?_⟩
  · intro p
    cases hi : specInit h with
    | false =>
      have : g.initialized = false := by rw [hinit]; exact hi
      simp [doGet, this, notInitialized]
    | true =>
      have hg : g.initialized = true := by rw [hinit]; exact hi
      have := hist_val p cs hg
      rw [← this]
      simp only [Bool.true_eq_false, if_false]
      show doGet p g = match (doGet p g).2 with | some v => (0, some v) | none => (-103, none)
      unfold doGet
      simp only [hg, not_true_eq_false, if_false, illegalValue]
      split_ifs <;> rfl
  · intro c hc
    cases c with
    | init par => simp only [call, doInit] at hc ⊢; split_ifs at hc ⊢ <;> simp_all
    | finalize par => simp only [call, doFinalize] at hc ⊢; split_ifs at hc ⊢ <;> simp_all
    | set par p v => simp only [call, doSet] at hc ⊢; split_ifs at hc ⊢ <;> simp_all
    | get p => rfl
  · intro p v
    have hg : g.initialized = specInit h := hinit
    rw [← hg]
    rcases set_ok false p v g with ⟨h1, h2, _, h3, _⟩ | ⟨h1, _, h3⟩
    · exact ⟨fun _ => ⟨h2, h3⟩, fun _ => h1⟩
    · exact ⟨fun h => absurd h h1, fun h => absurd ⟨h.1, rfl, h.2⟩ h3⟩
  · intro p v hv
    induction cs generalizing v with
    | nil => simp [h, history, specVal] at hv
    | cons c cs ih =>
      cases c with
      | init par =>
        simp only [h, history, specVal] at hv
        split_ifs at hv
        · unfold dflt at hv
          unfold legal
          split_ifs at hv <;> simp at hv <;> omega
        · exact ih (hist_init cs) v hv
      | finalize par =>
        simp only [h, history, specVal] at hv
        split_ifs at hv
        exact ih (hist_init cs) v hv
      | set par q w =>
        simp only [h, history, specVal, call] at hv
        split_ifs at hv with hc
        · obtain ⟨h1, rfl⟩ := hc
          simp only [Option.some.injEq] at hv
          subst hv
          rcases set_ok par q w (history cs).1 with ⟨_, _, _, h3, _⟩ | ⟨h2, _, _⟩
          · exact h3
          · exact absurd h1 h2
        · exact ih (hist_init cs) v hv
      | get q =>
        simp only [h, history, specVal] at hv
        exact ih (hist_init cs) v hv

/-- A history with a successful set, a rejected set and a set inside a parallel region. -/
example : let cs := [Call.set true 1 7, .set false 1 (-3), .set false 1 192, .init false]
    doGet 1 (history cs).1 = (0, some 192) ∧ specVal 1 (history cs).2 = some 192 ∧
    specVal 2 (history cs).2 = some 64 := by decide

set_option maxRecDepth 8000 in
/-- **C52.**  Every documented constant of the families passed to LAPACK (transpose,
uplo, diagonal, side, norm, direction, storage) is translated to the LAPACK character of
the same meaning; integers outside the table give the null character; and the character
tables of control/constants.c invert the translation. -/
theorem C52_constants :
    (lapackConst 111 = 'N' ∧ lapackConst 112 = 'T' ∧ lapackConst 113 = 'C') ∧
    (lapackConst 121 = 'U' ∧ lapackConst 122 = 'L' ∧ lapackConst 123 = 'G') ∧
    (lapackConst 131 = 'N' ∧ lapackConst 132 = 'U') ∧
    (lapackConst 141 = 'L' ∧ lapackConst 142 = 'R') ∧
    (lapackConst 171 = 'O' ∧ lapackConst 174 = 'F' ∧ lapackConst 175 = 'I' ∧ lapackConst 177 = 'M') ∧
    (lapackConst 391 = 'F' ∧ lapackConst 392 = 'B') ∧ (lapackConst 401 = 'C' ∧ lapackConst 402 = 'R') ∧
    (∀ c : Int, c < 0 ∨ 503 ≤ c → lapackConst c = '\x00') ∧
    (∀ c ∈ [111, 112, 113], transConst (lapackConst c) = c) ∧
    (∀ c ∈ [121, 122, 123], uploConst (lapackConst c) = c) ∧
    (∀ c ∈ [131, 132], diagConst (lapackConst c) = c) ∧
    (∀ c ∈ [141, 142], sideConst (lapackConst c) = c) ∧
    (∀ c ∈ [171, 174, 175, 177], normConst (lapackConst c) = c) ∧
    (∀ c ∈ [391, 392], directConst (lapackConst c) = c) ∧
    (∀ c ∈ [401, 402], storevConst (lapackConst c) = c) := by
  refine ⟨by decide, by decide, by decide, by decide, by decide, by decide, by decide, ?_, by decide,
    by decide, by decide, by decide, by decide, by decide, by decide⟩
  intro c hc
  have hl : (lapackConstants.length : Int) = 503 := by decide
  unfold lapackConst
  rw [if_pos (by rw [hl]; omega)]
  decide

/-- Injectivity within each family follows from the inverse tables. -/
theorem C52_injective {f : Char → Int} {l : List Int} (h : ∀ c ∈ l, f (lapackConst c) = c)
    (a b : Int) (ha : a ∈ l) (hb : b ∈ l) (he : lapackConst a = lapackConst b) : a = b := by
  rw [← h a ha, ← h b hb, he]

set_option maxRecDepth 8000 in
/-- **C55** is false: because of the missing comma after `"Rowwise"`, `PlasmaW` (501) is
translated to `'A'` and `PlasmaA2` (502) to the null character. -/
theorem C55_shifted_constants : lapackConst 501 = 'A' ∧ lapackConst 502 = '\x00' ∧ lapackConst 500 = 'W' := by
  decide

end Verif.Props

/-
The LU panel kernel under every interleaving of its ranks.
-/
import Verif.PanelProof

namespace Verif.Panel

open Verif.Tile Verif.Layout Verif.LU Verif.Sched Finset

set_option linter.unusedSectionVars false

universe v w x y

/-- The memory of the kernel: the panel, `ipiv[0..min(m,n))`, `max_val`, `max_idx` with one entry
per rank, `info`. -/
def pvalid (z : Cfg) : Foot PT := fun p i c =>
  z.reg (fun r c => r < z.M ∧ c < z.N) p i c ∨ (p = .ipiv ∧ i < z.mn ∧ c = 0) ∨
  ((p = .mval ∨ p = .midx) ∧ i < z.size ∧ c = 0) ∨ (p = .info ∧ i = 0 ∧ c = 0)

variable {α : Type v} [Field α] [StarRing α] [DecidableEq α] {γ : Type w} [LinearOrder γ] {z : Cfg}

theorem mem_blocks (h : z.OK) {k : Nat} (hk : k ∈ blocks z) : k < z.mn := by
  obtain ⟨q, hq, rfl⟩ := List.mem_map.mp hk
  rw [List.mem_range, lt_ceilDiv h.ib] at hq
  exact hq

theorem searchT_inside (mag : α → γ) {j rank : Nat} (hj : j < z.mn) (hr : rank < z.size) :
    (searchT z mag j rank).Inside (pvalid z) := by
  have := z.mn_N
  rintro p i c (⟨l, rfl, hi, h1, h2, _⟩ | ⟨h1, rfl, rfl⟩)
  · exact Or.inl ⟨l, rfl, hi, h2, by omega⟩
  · exact Or.inr (Or.inr (Or.inl ⟨h1, hr, rfl⟩))

theorem pivotT_inside (h : z.OK) (mag : α → γ) {k j rank : Nat} (hk : k < z.mn) (hj : j < z.mn) :
    (pivotT z mag k j rank).Inside (pvalid z) := by
  have h0 := h.size
  have h1 := z.mn_N
  have h2 := Cfg.kb_le hk.le
  rintro p i c (⟨_, h3, h4, rfl⟩ | ⟨_, (⟨h3, rfl, rfl⟩ | ⟨rfl, rfl, rfl⟩ | ⟨rfl, rfl, rfl⟩ | ⟨l, rfl, hi, h3⟩)⟩)
  · exact Or.inr (Or.inr (Or.inl ⟨h3, h4, rfl⟩))
  · exact Or.inr (Or.inr (Or.inl ⟨h3, h0, rfl⟩))
  · exact Or.inr (Or.inl ⟨rfl, hj, rfl⟩)
  · exact Or.inr (Or.inr (Or.inr ⟨rfl, rfl, rfl⟩))
  · exact Or.inl ⟨l, rfl, hi, h3.2.1, by omega⟩

theorem updateT_inside (dv : α → α → α) (big : α → Bool) {k j rank : Nat} (hk : k < z.mn)
    (hj : j < z.mn) : (updateT z dv big k j rank).Inside (pvalid z) := by
  have h1 := z.mn_N
  have h3 := z.mn_M
  have h2 := Cfg.kb_le hk.le
  rintro p i c ((⟨l, rfl, hi, h4⟩ | ⟨rfl, rfl, rfl⟩) | ⟨l, rfl, hi, h4⟩)
  · exact Or.inl ⟨l, rfl, hi, by omega, by omega⟩
  · exact Or.inr (Or.inr (Or.inr ⟨rfl, rfl, rfl⟩))
  · exact Or.inl ⟨l, rfl, hi, h4.2.1, by omega⟩

theorem rightT_inside (dv : α → α → α) {k rank : Nat} (hk : k < z.mn) :
    (rightT z dv k rank).Inside (pvalid z) := by
  have h1 := z.mn_N
  have h3 := z.mn_M
  have h2 := Cfg.kb_le hk.le
  rintro p i c (⟨_, l, rfl, hi, h4⟩ | ⟨_, (⟨rfl, h4, h5, rfl⟩ | ⟨l, rfl, hi, h4⟩)⟩)
  · exact Or.inl ⟨l, rfl, hi, by omega, by omega⟩
  · exact Or.inr (Or.inl ⟨rfl, by omega, rfl⟩)
  · exact Or.inl ⟨l, rfl, hi, h4.2.1, by omega⟩

theorem gemmT_inside {k rank : Nat} (hk : k < z.mn) :
    (gemmT z k rank : TTask PT (α × Nat)).Inside (pvalid z) := by
  have h1 := z.mn_N
  have h3 := z.mn_M
  have h2 := Cfg.kb_le hk.le
  rintro p i c (⟨l, rfl, hi, h4⟩ | ⟨l, rfl, hi, h4⟩)
  · exact Or.inl ⟨l, rfl, hi, by omega, by omega⟩
  · exact Or.inl ⟨l, rfl, hi, h4.2.1, by omega⟩

theorem leftT_inside {rank : Nat} : (leftT z rank : TTask PT (α × Nat)).Inside (pvalid z) := by
  have h1 := z.mn_N
  rintro p i c (⟨_, rfl, h4, rfl⟩ | ⟨_, l, rfl, hi, h4⟩)
  · exact Or.inr (Or.inl ⟨rfl, h4, rfl⟩)
  · exact Or.inl ⟨l, rfl, hi, h4.1, by omega⟩

/-- All phases are free of races, depend on their footprint only and stay in the memory of the
kernel. -/
theorem phases_ok (h : z.OK) (mag : α → γ) (dv : α → α → α) (big : α → Bool) :
    ∀ ph ∈ phases z mag dv big, RaceFree z.size ph ∧
      ∀ r, r < z.size → (ph r).Local ∧ (ph r).Inside (pvalid z) := by
  intro ph hph
  unfold phases at hph
  rw [List.mem_append, List.mem_flatMap] at hph
  rcases hph with ⟨k, hk, hph⟩ | hph
  · have hk := mem_blocks h hk
    have hkb := Cfg.kb_le hk.le
    rw [List.mem_append, List.mem_flatMap] at hph
    rcases hph with ⟨j, hj, hph⟩ | hph
    · rw [List.mem_range'_1] at hj
      have hj' : j < z.mn := by omega
      simp only [List.mem_cons, List.not_mem_nil, or_false] at hph
      rcases hph with rfl | rfl | rfl
      · exact ⟨searchT_free mag _ _, fun r hr => ⟨searchT_local h mag hj', searchT_inside mag hj' hr⟩⟩
      · exact ⟨pivotT_free mag _ _ _, fun r hr => ⟨pivotT_local h mag hj', pivotT_inside h mag hk hj'⟩⟩
      · exact ⟨updateT_free dv big _ _ _, fun r hr =>
          ⟨updateT_local h dv big hj.2, updateT_inside dv big hk hj'⟩⟩
    · simp only [List.mem_cons, List.not_mem_nil, or_false] at hph
      rcases hph with rfl | rfl
      · exact ⟨rightT_free dv _ _, fun r hr => ⟨rightT_local h dv hk.le, rightT_inside dv hk⟩⟩
      · exact ⟨gemmT_free _ _, fun r hr => ⟨gemmT_local h, gemmT_inside hk⟩⟩
  · simp only [List.mem_cons, List.not_mem_nil, or_false] at hph
    subst hph
    exact ⟨leftT_free _, fun r hr => ⟨leftT_local h, leftT_inside⟩⟩

/-- **All interleavings of the ranks.**  Whatever the order in which the ranks execute between
two barriers, and however their memory accesses interleave, the memory at the end is the
sequential result. -/
theorem panel_run {X : Type x} {K : Type y} (h : z.OK) (mag : α → γ) (dv : α → α → α) (big : α → Bool)
    {loc : PT → Nat → Nat → X} {key : PT → K} (hinj : InjOn loc (pvalid z))
    {Ts : List (Task K X (α × Nat))} {sch}
    (hI : List.Forall₂ (TaskImpl loc key) (spmd z.size (phases z mag dv big)) Ts)
    (hs : Legal Ts sch) (mem : X → α × Nat) {p i j} (hv : pvalid z p i j) :
    runSched Ts sch mem (loc p i j) = phasesRun z.size (phases z mag dv big) (view loc mem) p i j :=
  spmd_run (fun ph hp => (phases_ok h mag dv big ph hp).1)
    (fun ph hp r hr => ((phases_ok h mag dv big ph hp).2 r hr).1) hinj
    (fun ph hp r hr => ((phases_ok h mag dv big ph hp).2 r hr).2) hI hs mem hv

/-- The result depends on the memory of the kernel only. -/
theorem phases_congr (h : z.OK) (mag : α → γ) (dv : α → α → α) (big : α → Bool) {s s' : PS α}
    (hs : ∀ p i c, pvalid z p i c → s p i c = s' p i c) {p i c} (hv : pvalid z p i c) :
    phasesRun z.size (phases z mag dv big) s p i c = phasesRun z.size (phases z mag dv big) s' p i c := by
  rw [← texec_spmd, ← texec_spmd]
  refine texec_congr (valid := pvalid z) _ ?_ ?_ s s' hs p i c hv
  · intro t ht
    obtain ⟨i, ph, r, hp, hr, rfl⟩ := mem_spmd.mp ht
    exact ((phases_ok h mag dv big ph (List.mem_of_getElem? hp)).2 r hr).1
  · intro t ht
    obtain ⟨i, ph, r, hp, hr, rfl⟩ := mem_spmd.mp ht
    exact ((phases_ok h mag dv big ph (List.mem_of_getElem? hp)).2 r hr).2

end Verif.Panel

/-
C95: what `plasma_zgesdd` returns and leaves allocated when memory runs out or `dbdsdc` fails.
-/
import Verif.GesddRes
import Mathlib.Tactic.Basic
import Mathlib.Tactic.Cases

namespace Verif.GesddRes

theorem frees_alloc {bs : List Blk} {b : Blk} (h : b ∈ bs) (ok : Blk → Bool) (l : List Blk) : frees bs (alloc ok l b) = frees bs l := by
  unfold frees alloc
  split
  · simp [h]
  · rfl

theorem frees_foldl {bs : List Blk} (ok : Blk → Bool) : ∀ (cs l : List Blk), (∀ b ∈ cs, b ∈ bs) → frees bs (cs.foldl (alloc ok) l) = frees bs l
  | [], _, _ => rfl
  | c :: cs, l, h => by
    rw [List.foldl_cons, frees_foldl ok cs _ fun b hb => h b (List.mem_cons_of_mem _ hb), frees_alloc (h c List.mem_cons_self)]

theorem frees_comm (bs cs l : List Blk) : frees bs (frees cs l) = frees cs (frees bs l) := by
  simp [frees, List.filter_filter, Bool.and_comm]

/-- The allocations of `plasma_omp_zgesdd` whose result is checked (compute/zgesdd.c:455-563, 619-626). -/
def checked (vec : Bool) : List Blk :=
  if vec then [.band, .e, .tauQ, .vQ, .tQ, .tauP, .vP, .tP, .ru, .rvt] else [.band, .e, .tauQ, .vQ, .tauP, .vP]

theorem temps_q (vec : Bool) : ∀ b ∈ (if vec then [.tauQ, .vQ, .tQ] else [.tauQ, .vQ] : List Blk), b ∈ temps := by
  cases vec <;> decide

theorem temps_p (vec : Bool) : ∀ b ∈ (if vec then [.tauP, .vP, .tP] else [.tauP, .vP] : List Blk), b ∈ temps := by
  cases vec <;> decide

/-- Whatever fails, a call of `plasma_omp_zgesdd` that is defined frees what it allocated, and the end is reached only if nothing failed. -/
theorem ompGesdd_eq (vec : Bool) (ok : Blk → Bool) (info : Int) (live : List Blk)
    (hl : ∀ x ∈ live, x ∉ temps ++ [Blk.ru, .rvt, .descU, .descVT]) :
    ompGesdd vec ok info live =
      if (checked vec).all ok && decide (info = 0) then
        if vec && !(ok .descU && ok .descVT) then none else some (live, true)
      else some (live, false) := by
  have hx : ∀ bs : List Blk, (∀ b ∈ bs, b ∈ temps ++ [Blk.ru, .rvt, .descU, .descVT]) → frees bs live = live := by
    intro bs hb
    unfold frees
    rw [List.filter_eq_self]
    intro x hxl
    have : x ∉ bs := fun h => hl x hxl (hb x h)
    simpa using this
  have ht := hx temps (by decide)
  have h1 := hx [.ru, .rvt] (by decide)
  have h2 := hx [.descU] (by decide)
  have h3 := hx [.descVT] (by decide)
  have hb : Blk.band ∈ temps := by decide
  have he : Blk.e ∈ temps := by decide
  have hq := temps_q vec
  have hp := temps_p vec
  unfold ompGesdd
  have k1 : frees temps (alloc ok live .band) = live := by rw [frees_alloc hb, ht]
  have k2 : frees temps (alloc ok (alloc ok live .band) .e) = live := by rw [frees_alloc he, k1]
  generalize hL2 : alloc ok (alloc ok live .band) .e = l2 at k2
  generalize hQ : (if vec then [.tauQ, .vQ, .tQ] else [.tauQ, .vQ] : List Blk) = qs at hq
  generalize hP : (if vec then [.tauP, .vP, .tP] else [.tauP, .vP] : List Blk) = ps at hp
  have k3 : frees temps (qs.foldl (alloc ok) l2) = live := by rw [frees_foldl ok _ _ hq, k2]
  generalize hL3 : qs.foldl (alloc ok) l2 = l3 at k3
  have k4 : frees temps (ps.foldl (alloc ok) l3) = live := by rw [frees_foldl ok _ _ hp, k3]
  generalize hL4 : ps.foldl (alloc ok) l3 = l4 at k4
  have k5 : frees temps (frees [.ru, .rvt] ([Blk.ru, .rvt].foldl (alloc ok) l4)) = live := by
    rw [frees_foldl ok _ _ (fun b hb => hb), frees_comm, k4, h1]
  generalize hL5 : frees [.ru, .rvt] ([Blk.ru, .rvt].foldl (alloc ok) l4) = l5 at k5
  have k6 : frees temps (frees [.descU] (alloc ok l5 .descU)) = live := by
    rw [frees_alloc (by simp), frees_comm, k5, h2]
  generalize hL6 : frees [.descU] (alloc ok l5 .descU) = l6 at k6
  have k7 : frees temps (frees [.descVT] (alloc ok l6 .descVT)) = live := by
    rw [frees_alloc (by simp), frees_comm, k6, h3]
  have hall : (checked vec).all ok = (ok .band && ok .e && qs.all ok && ps.all ok && (!vec || (ok .ru && ok .rvt))) := by
    subst hQ hP
    cases vec <;> simp [checked, Bool.and_assoc]
  simp only [hL2, hL3, hL4, hL5, hL6, k1, k2, k3, k4, k5, k7, hall]
  cases ok .band <;> cases ok .e <;> cases qs.all ok <;> cases ps.all ok <;> cases vec <;> cases ok .ru <;> cases ok .rvt <;>
    by_cases hi : info = 0 <;> cases ok .descU <;> cases ok .descVT <;> simp [hi]

end Verif.GesddRes

namespace Verif.Props

open Verif.GesddRes

/-- C95, the part that holds: when the two tile matrices and the workspace can be allocated, every defined call returns with exactly the matrix `T`, which belongs to the
caller, still allocated; without failures it returns success with the decomposition computed; a failed allocation of `A`, `T` or the workspace is reported. -/
theorem C95_resources_partial (vec : Bool) (ok : Blk → Bool) (info : Int) :
    ((ok .descA && ok .descT && ok .work) = false → ∃ live, gesdd vec ok info = .ret (-104) live false) ∧
    ((∀ b, ok b = true) → info = 0 → gesdd vec ok info = .ret 0 [.descT] true) ∧
    (∀ code live c, ok .descA = true → ok .descT = true → ok .work = true → gesdd vec ok info = .ret code live c → live = [.descT]) := by
  have hl : ∀ x ∈ [Blk.work, .descT, .descA], x ∉ temps ++ [Blk.ru, .rvt, .descU, .descVT] := by decide
  have hf : frees [.work, .descA] [.work, .descT, .descA] = [.descT] := by decide
  refine ⟨fun h => ?_, fun h hi => ?_, fun code live c ha ht hw h => ?_⟩
  · unfold gesdd
    cases ha : ok .descA
    · exact ⟨_, by simp; rfl⟩
    · cases ht : ok .descT
      · exact ⟨_, by simp; rfl⟩
      · have : ok .work = false := by simpa [ha, ht] using h
        exact ⟨_, by simp [this]; rfl⟩
  · unfold gesdd
    simp only [alloc, h, if_true, Bool.not_true, Bool.false_eq_true, if_false]
    rw [ompGesdd_eq vec ok info _ hl]
    simp [h, hi, hf]
  · unfold gesdd at h
    simp only [alloc, ha, ht, hw, if_true, Bool.not_true, Bool.false_eq_true, if_false] at h
    rw [ompGesdd_eq vec ok info _ hl] at h
    split at h
    · exact absurd h (by simp)
    · rename_i l c' heq
      have : l = [.work, .descT, .descA] := by
        split at heq
        · split at heq
          · exact absurd heq (by simp)
          · simp only [Option.some.injEq, Prod.mk.injEq] at heq; exact heq.1.symm
        · simp only [Option.some.injEq, Prod.mk.injEq] at heq; exact heq.1.symm
      subst this
      rw [hf] at h
      simp only [Res.ret.injEq] at h
      exact h.2.1.symm

/-- C95 fails: whenever one of the checked allocations of `plasma_omp_zgesdd` or `dbdsdc` fails, the call returns success without a decomposition. -/
theorem C95_status_refuted (vec : Bool) (ok : Blk → Bool) (info : Int) (ha : ok .descA = true) (ht : ok .descT = true) (hw : ok .work = true)
    (hbad : (∃ b ∈ checked vec, ok b = false) ∨ info ≠ 0) : gesdd vec ok info = .ret 0 [.descT] false := by
  have hl : ∀ x ∈ [Blk.work, .descT, .descA], x ∉ temps ++ [Blk.ru, .rvt, .descU, .descVT] := by decide
  have hc : ((checked vec).all ok && decide (info = 0)) = false := by
    rcases hbad with ⟨b, hb, hk⟩ | hi
    · have : (checked vec).all ok = false := by
        rw [List.all_eq_false]; exact ⟨b, hb, by simp [hk]⟩
      simp [this]
    · simp [hi]
  unfold gesdd
  simp only [alloc, ha, ht, hw, if_true, Bool.not_true, Bool.false_eq_true, if_false]
  rw [ompGesdd_eq vec ok info _ hl, hc]
  rfl

/-- C95 fails: a failed allocation of `T` leaves the tile matrix `A` allocated, a failed allocation of the workspace leaves `A` and `T`. -/
theorem C95_leak_refuted (vec : Bool) (ok : Blk → Bool) (info : Int) (ha : ok .descA = true) :
    (ok .descT = false → gesdd vec ok info = .ret (-104) [.descA] false) ∧
    (ok .descT = true → ok .work = false → gesdd vec ok info = .ret (-104) [.descT, .descA] false) := by
  constructor
  · intro ht; simp [gesdd, alloc, ha, ht]
  · intro ht hw; simp [gesdd, alloc, ha, ht, hw]

/-- C95 fails: with vectors, a failed allocation of the tile matrix `U` or `VT` is undefined behaviour. -/
theorem C95_null_tiles_refuted (ok : Blk → Bool) (h : ∀ b, b ≠ .descU → b ≠ .descVT → ok b = true) (hU : (ok .descU && ok .descVT) = false) :
    gesdd true ok 0 = .ub := by
  have hl : ∀ x ∈ [Blk.work, .descT, .descA], x ∉ temps ++ [Blk.ru, .rvt, .descU, .descVT] := by decide
  unfold gesdd
  simp only [alloc, h .descA (by decide) (by decide), h .descT (by decide) (by decide), h .work (by decide) (by decide), if_true, Bool.not_true,
    Bool.false_eq_true, if_false]
  rw [ompGesdd_eq true ok 0 _ hl]
  have hc : (checked true).all ok = true := by
    rw [List.all_eq_true]
    intro b hb
    apply h b <;> (rintro rfl; revert hb; decide)
  rw [hc, hU]
  rfl

/-- The vector `E` cannot be allocated. -/
example : gesdd false (fun b => b != .e) 0 = .ret 0 [.descT] false := C95_status_refuted _ _ _ rfl rfl rfl (Or.inl ⟨.e, by decide, rfl⟩)

/-- `dbdsdc` does not converge. -/
example : gesdd true (fun _ => true) 3 = .ret 0 [.descT] false := C95_status_refuted _ _ _ rfl rfl rfl (Or.inr (by decide))

/-- Everything succeeds. -/
example : gesdd true (fun _ => true) 0 = .ret 0 [.descT] true := (C95_resources_partial true _ 0).2.1 (fun _ => rfl) rfl

/-- The workspace cannot be allocated. -/
example : gesdd true (fun b => b != .work) 0 = .ret (-104) [.descT, .descA] false := (C95_leak_refuted true _ 0 rfl).2 rfl rfl

/-- `VT` cannot be allocated. -/
example : gesdd true (fun b => b != .descVT) 0 = .ub :=
  C95_null_tiles_refuted _ (fun b _ h2 => by simp [h2]) rfl

end Verif.Props

/-
Tasks that read and write several tiles.
-/
import Verif.Comb

namespace Verif.Tile

universe u v

variable {M : Type u} {α : Type v}

/-- A written operand: tile, elements written, new contents. -/
structure Wr (M : Type u) (α : Type v) where
  t : M
  r : Nat → Nat → Prop
  f : Store M α → Tl α

open Classical in
/-- New contents of the first operand that is tile `x`. -/
noncomputable def wsel (ws : List (Wr M α)) (s : Store M α) (x : M) : Tl α :=
  match ws with
  | [] => s x
  | w :: ws => if x = w.t then w.f s else wsel ws s x

/-- A task with read-only operands `rds` (tile, elements read) and written operands `ws`. -/
noncomputable def wop (rds : List (M × (Nat → Nat → Prop))) (ws : List (Wr M α)) : TTask M α where
  deps := rds.map (fun p => (p.1, false)) ++ ws.map (fun w => (w.t, true))
  rd := fun x i j => ∃ p ∈ rds, x = p.1 ∧ p.2 i j
  wr := fun x i j => ∃ w ∈ ws, x = w.t ∧ w.r i j
  f := fun s x i j => wsel ws s x i j

variable {rds : List (M × (Nat → Nat → Prop))} {ws : List (Wr M α)}

theorem wsel_mem (hn : (ws.map Wr.t).Nodup) {w : Wr M α} (hw : w ∈ ws) (s : Store M α) :
    wsel ws s w.t = w.f s := by
  induction ws with
  | nil => cases hw
  | cons w' ws ih =>
    rw [List.map_cons, List.nodup_cons] at hn
    unfold wsel
    rcases List.mem_cons.mp hw with rfl | h
    · rw [if_pos rfl]
    · rw [if_neg, ih hn.2 h]
      intro e
      exact hn.1 (e ▸ List.mem_map_of_mem h)

theorem wop_at (hn : (ws.map Wr.t).Nodup) {w : Wr M α} (hw : w ∈ ws) (s : Store M α) :
    (wop rds ws).run s w.t = paste w.r (w.f s) (s w.t) := by
  have hinj : ∀ w' ∈ ws, w.t = w'.t → w' = w := fun w' h' e => by
    have := List.inj_on_of_nodup_map hn h' hw e.symm
    exact this
  funext i j
  by_cases h : w.r i j
  · rw [TTask.run_wr (wop rds ws) s (a := w.t) (show (wop rds ws).wr _ _ _ from ⟨w, hw, rfl, h⟩), paste_in h]
    show wsel ws s w.t i j = _
    rw [wsel_mem hn hw]
  · rw [TTask.run_frame, paste_out h]
    rintro ⟨w', h', e, hr⟩
    rw [hinj w' h' e] at hr
    exact h hr

theorem wop_ne (s : Store M α) {x : M} (h : ∀ w ∈ ws, x ≠ w.t) : (wop rds ws).run s x = s x := by
  funext i j
  apply TTask.run_frame
  rintro ⟨w, hw, e, _⟩
  exact h w hw e

theorem wop_declared : (wop rds ws).Declared := by
  constructor
  · rintro x i j ⟨p, hp, rfl, _⟩
    exact ⟨false, List.mem_append_left _ (List.mem_map.mpr ⟨p, hp, rfl⟩)⟩
  · rintro x i j ⟨w, hw, rfl, _⟩
    exact List.mem_append_right _ (List.mem_map.mpr ⟨w, hw, rfl⟩)

theorem wop_local (hn : (ws.map Wr.t).Nodup)
    (h : ∀ w ∈ ws, ∀ s s' : Store M α, (∀ p ∈ rds, ∀ i j, p.2 i j → s p.1 i j = s' p.1 i j) →
      (∀ w ∈ ws, ∀ i j, w.r i j → s w.t i j = s' w.t i j) → ∀ i j, w.r i j → w.f s i j = w.f s' i j) :
    (wop rds ws).Local := by
  rintro s s' hs x i j ⟨w, hw, rfl, hr⟩
  show wsel ws s w.t i j = wsel ws s' w.t i j
  rw [wsel_mem hn hw, wsel_mem hn hw]
  exact h w hw s s' (fun p hp i j h => hs _ _ _ (Or.inl ⟨p, hp, rfl, h⟩))
    (fun w hw i j h => hs _ _ _ (Or.inr ⟨w, hw, rfl, h⟩)) i j hr

theorem wop_inside {valid : Foot M} (h1 : ∀ p ∈ rds, ∀ i j, p.2 i j → valid p.1 i j)
    (h2 : ∀ w ∈ ws, ∀ i j, w.r i j → valid w.t i j) : (wop rds ws).Inside valid := by
  rintro x i j (⟨p, hp, rfl, h⟩ | ⟨w, hw, rfl, h⟩)
  · exact h1 p hp i j h
  · exact h2 w hw i j h

theorem writes_wop {W : M → Prop} (h : ∀ w ∈ ws, W w.t) : Writes W [wop rds ws] := by
  refine Writes.single ?_
  rintro x i j ⟨w, hw, rfl, _⟩
  exact h w hw

end Verif.Tile

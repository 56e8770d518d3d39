/-
Dependences of the LU factorization when list items of `depend` clauses are matched by base
address, as common OpenMP runtimes do.
-/
import Verif.Getri
import Verif.GetrfGood

set_option linter.unusedSectionVars false

namespace Verif.Tile

open Verif.Layout Verif.Sched Verif.LU Verif.Panel

universe u v w

section general
variable {M : Type u} {α : Type v} {A P : TMat M}

/-- The footprint of `t` is described by the list `D`. -/
def DeclBy (t : TTask (M × Nat × Nat) α) (D : List ((M × Nat × Nat) × Bool)) : Prop :=
  (∀ x i j, t.rd x i j → ∃ w, (x, w) ∈ D) ∧ ∀ x i j, t.wr x i j → (x, true) ∈ D

/-- A task whose accesses to the tiles of a column of `A` are announced by a dependence on the
last tile of the column, and whose accesses to `P` are announced as they are. -/
structure TwinS (A P : TMat M) (t : TTask (M × Nat × Nat) α) : Prop where
  out : ∀ x i j, t.rd x i j ∨ t.wr x i j → (∃ m c, x = A.at' m c) ∨ ∃ q c, x = P.at' q c
  ra : ∀ m c i j, t.rd (A.at' m c) i j → ∃ w, (A.at' (A.d.mt - 1) c, w) ∈ t.deps
  wa : ∀ m c i j, t.wr (A.at' m c) i j → (A.at' (A.d.mt - 1) c, true) ∈ t.deps
  rp : ∀ q c i j, t.rd (P.at' q c) i j → ∃ w, (P.at' q c, w) ∈ t.deps
  wp : ∀ q c i j, t.wr (P.at' q c) i j → (P.at' q c, true) ∈ t.deps

/-- The same for the interchanges at the end, which announce `P` by its first element only. -/
structure TwinT (N : Nat) (A P : TMat M) (t : TTask (M × Nat × Nat) α) : Prop where
  out : ∀ x i j, t.rd x i j ∨ t.wr x i j → (∃ m c, x = A.at' m c) ∨ ∃ q c, x = P.at' q c
  ra : ∀ m c i j, t.rd (A.at' m c) i j → ∃ w, (A.at' (A.d.mt - 1) c, w) ∈ t.deps
  wa : ∀ m c i j, t.wr (A.at' m c) i j → (A.at' (A.d.mt - 1) c, true) ∈ t.deps
  rp : ∀ q c i j, t.rd (P.at' q c) i j → q < N ∧ c = 0 ∧ ∃ w, (P.at' 0 0, w) ∈ t.deps
  wp : ∀ q c i j, ¬ t.wr (P.at' q c) i j

theorem twin_cov {N : Nat} {S T : List (TTask (M × Nat × Nat) α)} (hS : ∀ t ∈ S, TwinS A P t)
    (hT : ∀ t ∈ T, TwinT N A P t) :
    TCovered (S ++ (((List.range N).map fun m => nopT [(P.at' m 0, false), (P.at' 0 0, true)]) ++ T)) := by
  set Q := (List.range N).map fun m => nopT (α := α) [(P.at' m 0, false), (P.at' 0 0, true)] with hQ
  have hlen : Q.length = N := by simp [hQ]
  intro i j t t' hij hi hj hc
  obtain ⟨x, p, q, hc⟩ := hc
  have hx1 : t.rd x p q ∨ t.wr x p q := by tauto
  have hx2 : t'.rd x p q ∨ t'.wr x p q := by tauto
  have hw : t.wr x p q ∨ t'.wr x p q := by tauto
  have key : ∀ t ∈ S ++ (Q ++ T), t ∈ S ∨ (∃ l, t = nopT l) ∨ t ∈ T := by
    intro t ht
    rcases List.mem_append.mp ht with ht | ht
    · exact Or.inl ht
    rcases List.mem_append.mp ht with ht | ht
    · obtain ⟨m, -, rfl⟩ := List.mem_map.mp ht
      exact Or.inr (Or.inl ⟨_, rfl⟩)
    · exact Or.inr (Or.inr ht)
  have ki := key t (List.mem_of_getElem? hi)
  have kj := key t' (List.mem_of_getElem? hj)
  have n1 : ¬ ∃ l, t = nopT l := by rintro ⟨l, rfl⟩; exact hx1.elim id id
  have n2 : ¬ ∃ l, t' = nopT l := by rintro ⟨l, rfl⟩; exact hx2.elim id id
  have out : (∃ m c, x = A.at' m c) ∨ ∃ q c, x = P.at' q c := by
    rcases ki with h | h | h
    · exact (hS t h).out x p q hx1
    · exact absurd h n1
    · exact (hT t h).out x p q hx1
  rcases out with ⟨m, c, rfl⟩ | ⟨q', c, rfl⟩
  · have ka : ∀ t, (t ∈ S ∨ (∃ l, t = nopT l) ∨ t ∈ T) → (¬ ∃ l, t = nopT l) →
        (t.rd (A.at' m c) p q ∨ t.wr (A.at' m c) p q → ∃ w, (A.at' (A.d.mt - 1) c, w) ∈ t.deps) ∧
        (t.wr (A.at' m c) p q → (A.at' (A.d.mt - 1) c, true) ∈ t.deps) := by
      intro t ht hn
      rcases ht with h | h | h
      · exact ⟨fun hh => hh.elim ((hS t h).ra m c p q) fun hh => ⟨_, (hS t h).wa m c p q hh⟩, (hS t h).wa m c p q⟩
      · exact absurd h hn
      · exact ⟨fun hh => hh.elim ((hT t h).ra m c p q) fun hh => ⟨_, (hT t h).wa m c p q hh⟩, (hT t h).wa m c p q⟩
    obtain ⟨a1, a2⟩ := ka t ki n1
    obtain ⟨b1, b2⟩ := ka t' kj n2
    refine Relation.TransGen.single ⟨hij, t, t', hi, hj, Or.inr ?_⟩
    rcases hw with hw | hw
    · obtain ⟨w, hb⟩ := b1 hx2
      exact ⟨_, a2 hw, _, hb, rfl, Or.inl rfl⟩
    · obtain ⟨w, ha⟩ := a1 hx1
      exact ⟨_, ha, _, b2 hw, rfl, Or.inr rfl⟩
  · by_cases hjS : j < S.length
    · have hj' := hj
      have hi' := hi
      rw [List.getElem?_append_left hjS] at hj'
      rw [List.getElem?_append_left (by omega)] at hi'
      have s1 := hS t (List.mem_of_getElem? hi')
      have s2 := hS t' (List.mem_of_getElem? hj')
      refine Relation.TransGen.single ⟨hij, t, t', hi, hj, Or.inr ?_⟩
      rcases hw with hw | hw
      · obtain ⟨w, hb⟩ := hx2.elim (s2.rp q' c p q) fun h => ⟨_, s2.wp q' c p q h⟩
        exact ⟨_, s1.wp q' c p q hw, _, hb, rfl, Or.inl rfl⟩
      · obtain ⟨w, ha⟩ := hx1.elim (s1.rp q' c p q) fun h => ⟨_, s1.wp q' c p q h⟩
        exact ⟨_, ha, _, s2.wp q' c p q hw, rfl, Or.inr rfl⟩
    · have hj2 : j < S.length + N ∨ S.length + N ≤ j := by omega
      rcases hj2 with hj2 | hj2
      · exfalso
        rw [List.getElem?_append_right (by omega), List.getElem?_append_left (by omega)] at hj
        obtain ⟨m, -, h⟩ := List.mem_map.mp (List.mem_of_getElem? hj)
        exact n2 ⟨_, h.symm⟩
      · have hj' := hj
        rw [List.getElem?_append_right (by omega), List.getElem?_append_right (by omega)] at hj'
        have s2 := hT t' (List.mem_of_getElem? hj')
        have hw1 : t.wr (P.at' q' c) p q := hw.resolve_right (s2.wp q' c p q)
        have hr2 := hx2.resolve_right (s2.wp q' c p q)
        obtain ⟨hqN, rfl, w, hd⟩ := s2.rp q' c p q hr2
        have hiS : i < S.length := by
          by_contra hge
          rw [List.getElem?_append_right (by omega)] at hi
          rcases List.mem_append.mp (List.mem_of_getElem? hi) with h | h
          · obtain ⟨m, -, h⟩ := List.mem_map.mp h
            exact n1 ⟨_, h.symm⟩
          · exact (hT t h).wp q' 0 p q hw1
        have hi' := hi
        rw [List.getElem?_append_left hiS] at hi'
        have s1 := hS t (List.mem_of_getElem? hi')
        have hnop : (S ++ (Q ++ T))[S.length + q']? = some (nopT [(P.at' q' 0, false), (P.at' 0 0, true)]) := by
          rw [List.getElem?_append_right (by omega), List.getElem?_append_left (by omega), Nat.add_sub_cancel_left,
            hQ, List.getElem?_map, List.getElem?_range hqN]
          rfl
        refine Relation.TransGen.head (b := S.length + q') ⟨by omega, t, _, hi, hnop, Or.inr ?_⟩
          (Relation.TransGen.single ⟨by omega, _, t', hnop, hj, Or.inr ?_⟩)
        · exact ⟨_, s1.wp q' 0 p q hw1, (P.at' q' 0, false), by simp [nopT], rfl, Or.inl rfl⟩
        · exact ⟨(P.at' 0 0, true), by simp [nopT], _, hd, rfl, Or.inl rfl⟩

/-- Each task that touches a tile of `A` has a dependence on that tile or follows in a chain of
dependences a task that has. -/
def PreAnch (A : TMat M) (L : List (TTask (M × Nat × Nat) α)) : Prop :=
  ∀ (j : Nat) t', L[j]? = some t' → ∀ m n k l, t'.rd (A.at' m n) k l ∨ t'.wr (A.at' m n) k l →
    ∃ (i : Nat) (t : TTask (M × Nat × Nat) α) (w : Bool), L[i]? = some t ∧ (A.at' m n, w) ∈ t.deps ∧
      Relation.ReflTransGen (TEdge L) i j

theorem PreAnch.append {L L' : List (TTask (M × Nat × Nat) α)} (h : PreAnch A L) (h' : PreAnch A L') :
    PreAnch A (L ++ L') := by
  intro j t' ht m n k l hx
  by_cases hj : j < L.length
  · rw [List.getElem?_append_left hj] at ht
    obtain ⟨i, t, w, h1, h2, h3⟩ := h j t' ht m n k l hx
    refine ⟨i, t, w, ?_, h2, Relation.ReflTransGen.mono (fun a b hab => tedge_left hab) _ _ h3⟩
    rw [List.getElem?_append_left (List.getElem?_eq_some_iff.mp h1).1]; exact h1
  · obtain ⟨q, rfl⟩ := Nat.exists_eq_add_of_le (Nat.le_of_not_lt hj)
    rw [List.getElem?_append_right (by omega), Nat.add_sub_cancel_left] at ht
    obtain ⟨i, t, w, h1, h2, h3⟩ := h' q t' ht m n k l hx
    refine ⟨L.length + i, t, w, ?_, h2,
      Relation.ReflTransGen.lift (fun i => L.length + i) (fun a b hab => tedge_right hab) _ _ h3⟩
    rw [List.getElem?_append_right (by omega), Nat.add_sub_cancel_left]; exact h1

theorem PreAnch.nil : PreAnch A ([] : List (TTask (M × Nat × Nat) α)) := by
  intro j t ht; simp at ht

theorem PreAnch.flatMap {ι : Type w} {l : List ι} {g : ι → List (TTask (M × Nat × Nat) α)}
    (h : ∀ x ∈ l, PreAnch A (g x)) : PreAnch A (l.flatMap g) := by
  induction l with
  | nil => exact PreAnch.nil
  | cons x l ih =>
    rw [List.flatMap_cons]
    exact (h x (by simp)).append (ih fun y hy => h y (by simp [hy]))

/-- Tasks that have a dependence on every tile of `A` they touch. -/
theorem PreAnch.of {L : List (TTask (M × Nat × Nat) α)}
    (h : ∀ t ∈ L, ∀ m n k l, t.rd (A.at' m n) k l ∨ t.wr (A.at' m n) k l → ∃ w, (A.at' m n, w) ∈ t.deps) :
    PreAnch A L := by
  intro j t ht m n k l hx
  obtain ⟨w, hw⟩ := h t (List.mem_of_getElem? ht) m n k l hx
  exact ⟨j, t, w, ht, hw, Relation.ReflTransGen.refl⟩

/-- Conversion tasks followed by the tasks of an algorithm. -/
theorem TCovered.pre {C L : List (TTask (M × Nat × Nat) α)} (hC : ∀ t ∈ C, t.Declared) (hL : TCovered L)
    (hr : ∀ t ∈ C, ∀ t' ∈ L, ∀ x i j, t.rd x i j → ¬ t'.wr x i j)
    (hw : ∀ t ∈ C, ∀ t' ∈ L, ∀ x i j, t.wr x i j → t'.rd x i j ∨ t'.wr x i j → ∃ m c, x = A.at' m c)
    (hp : PreAnch A L) : TCovered (C ++ L) := by
  intro i j t t' hij hi hj hc
  by_cases hiC : i < C.length
  · have hi' := hi
    rw [List.getElem?_append_left hiC] at hi'
    have htC := List.mem_of_getElem? hi'
    by_cases hjC : j < C.length
    · have hj' := hj
      rw [List.getElem?_append_left hjC] at hj'
      have := tcovered_of_declared hC i j t t' hij hi' hj' hc
      exact Relation.TransGen.mono (fun a b hab => tedge_left hab) _ _ this
    · obtain ⟨q, rfl⟩ := Nat.exists_eq_add_of_le (Nat.le_of_not_lt hjC)
      have hj' := hj
      rw [List.getElem?_append_right (by omega), Nat.add_sub_cancel_left] at hj'
      have htL := List.mem_of_getElem? hj'
      obtain ⟨x, p, p', hc⟩ := hc
      rcases hc with ⟨h1, h2⟩ | ⟨h1, h2⟩
      · obtain ⟨m, c, rfl⟩ := hw t htC t' htL x p p' h1 (by tauto)
        obtain ⟨i', u, w, g1, g2, g3⟩ := hp q t' hj' m c p p' (by tauto)
        have e : TEdge (C ++ L) i (C.length + i') := by
          refine ⟨by omega, t, u, hi, ?_, Or.inr ⟨_, (hC t htC).2 _ _ _ h1, _, g2, rfl, Or.inl rfl⟩⟩
          rw [List.getElem?_append_right (by omega), Nat.add_sub_cancel_left]; exact g1
        exact Relation.TransGen.head' e
          (Relation.ReflTransGen.lift (fun i => C.length + i) (fun a b hab => tedge_right hab) _ _ g3)
      · exact absurd h2 (hr t htC t' htL x p p' h1)
  · obtain ⟨p, rfl⟩ := Nat.exists_eq_add_of_le (Nat.le_of_not_lt hiC)
    obtain ⟨q, rfl⟩ := Nat.exists_eq_add_of_le (show C.length ≤ j by omega)
    rw [List.getElem?_append_right (by omega), Nat.add_sub_cancel_left] at hi hj
    exact Relation.TransGen.lift (fun i => C.length + i) (fun a b hab => tedge_right hab) _ _
      (hL p q t t' (by omega) hi hj hc)

/-- Two tasks are not ordered if no task after the first one, up to the second one, has a
dependence in common with the first one. -/
theorem no_path {X Y Z : List (TTask (M × Nat × Nat) α)} {t t' : TTask (M × Nat × Nat) α}
    (h : ∀ u ∈ Y ++ [t'], ¬ TDepOn t u) :
    ¬ Relation.TransGen (TEdge (X ++ t :: (Y ++ t' :: Z))) X.length (X.length + 1 + Y.length) := by
  intro hp
  have mono : ∀ a b, Relation.TransGen (TEdge (X ++ t :: (Y ++ t' :: Z))) a b → a < b := by
    intro a b hab
    induction hab with
    | single h => exact h.1
    | tail _ h ih => exact lt_trans ih h.1
  obtain ⟨c, hc, hle⟩ : ∃ c, TEdge (X ++ t :: (Y ++ t' :: Z)) X.length c ∧ c ≤ X.length + 1 + Y.length := by
    rcases Relation.TransGen.head'_iff.mp hp with ⟨c, h1, h2⟩
    refine ⟨c, h1, ?_⟩
    rcases Relation.reflTransGen_iff_eq_or_transGen.mp h2 with h2 | h2
    · omega
    · exact le_of_lt (mono _ _ h2)
  obtain ⟨hlt, u, u', h1, h2, h3⟩ := hc
  have e1 : u = t := by
    rw [List.getElem?_append_right (le_refl _), Nat.sub_self] at h1
    simpa using h1.symm
  subst e1
  refine h u' ?_ h3
  obtain ⟨d, rfl⟩ := Nat.exists_eq_add_of_le (show X.length + 1 ≤ c by omega)
  rw [List.getElem?_append_right (by omega), show X.length + 1 + d - X.length = d + 1 by omega,
    List.getElem?_cons_succ, show Y ++ t' :: Z = (Y ++ [t']) ++ Z by simp,
    List.getElem?_append_left (by simp; omega)] at h2
  exact List.mem_of_getElem? h2

end general

section lu
variable {M : Type u} [DecidableEq M] {α : Type v} [Field α] [StarRing α] [DecidableEq α] {γ : Type w}
  [LinearOrder γ] {b : Nat} {E : IntCode α} {A P : TMat M} {mag : α → γ} {dv : α → α → α} {big : α → Bool}
  {ib mpt : Nat} {env : M → MatEnv}

theorem mem_secT {A : TMat M} {lo hi n : Nat} {w w' : Bool} {x : M × Nat × Nat} :
    (x, w') ∈ secCol true A lo hi n w ↔ w' = w ∧ ∃ m, lo ≤ m ∧ m < hi ∧ x = A.at' m n := by
  unfold secCol
  rw [if_pos rfl, List.mem_map]
  constructor
  · rintro ⟨m, hm, he⟩
    rw [mem_span] at hm
    simp only [Prod.mk.injEq] at he
    exact ⟨he.2.symm, m, hm.1, hm.2, he.1.symm⟩
  · rintro ⟨rfl, m, h1, h2, rfl⟩
    exact ⟨m, mem_span.mpr ⟨h1, h2⟩, rfl⟩

theorem panelDeps_true {k : Nat} (hk : k < A.d.mt) {x : M × Nat × Nat} {w' : Bool}
    (h : (x, w') ∈ panelDeps true A P k) :
    w' = true ∧ ((∃ m, k ≤ m ∧ m < A.d.mt ∧ x = A.at' m k) ∨ x = P.at' k 0) := by
  unfold panelDeps at h
  simp only [List.mem_append, mem_secT, List.mem_cons, List.not_mem_nil, or_false, Prod.mk.injEq] at h
  rcases h with ⟨h1, m, h2, h3, h4⟩ | ⟨h1, h2⟩ | ⟨h1, h2⟩
  · exact ⟨h1, Or.inl ⟨m, h2, by omega, h4⟩⟩
  · exact ⟨h2, Or.inl ⟨_, by omega, by omega, h1⟩⟩
  · exact ⟨h2, Or.inr h1⟩

theorem updDeps_true {k n : Nat} (hk : k < A.d.mt) {x : M × Nat × Nat} {w' : Bool}
    (h : (x, w') ∈ updDeps true A P k n) :
    (w' = false ∧ ((∃ m, k ≤ m ∧ m < A.d.mt ∧ x = A.at' m k) ∨ x = P.at' k 0)) ∨
    (w' = true ∧ ∃ m, k ≤ m ∧ m < A.d.mt ∧ x = A.at' m n) := by
  unfold updDeps at h
  simp only [List.mem_append, mem_secT, List.mem_cons, List.not_mem_nil, or_false, Prod.mk.injEq] at h
  rcases h with ((⟨h1, m, h2, h3, h4⟩ | ⟨h1, h2⟩ | ⟨h1, h2⟩ | ⟨h1, h2⟩) | ⟨h1, m, h2, h3, h4⟩) | ⟨h1, h2⟩
  · exact Or.inl ⟨h1, Or.inl ⟨m, h2, by omega, h4⟩⟩
  · exact Or.inl ⟨h2, Or.inl ⟨_, by omega, by omega, h1⟩⟩
  · exact Or.inl ⟨h2, Or.inr h1⟩
  · exact Or.inr ⟨h2, k, le_refl _, hk, h1⟩
  · exact Or.inr ⟨h1, m, by omega, by omega, h4⟩
  · exact Or.inr ⟨h2, _, by omega, by omega, h1⟩

/-- Footprint of the panel task. -/
theorem panelT_decl {D : List ((M × Nat × Nat) × Bool)} (h : LuOK b A P ib mpt) {k : Nat} (hk : k < min A.d.mt A.d.nt) :
    DeclBy (panelT D E mag dv big ib mpt A P k) (panelDeps true A P k) :=
  panelT_declared (E := E) (mag := mag) (dv := dv) (big := big) h hk

theorem adjustT_decl {D : List ((M × Nat × Nat) × Bool)} (h : LuOK b A P ib mpt) {k : Nat} (hk : k < min A.d.mt A.d.nt) :
    DeclBy (adjustT D E A P k) (panelDeps true A P k) :=
  adjustT_declared (E := E) h hk (rg := true)

theorem updT_decl (h : LuOK b A P ib mpt) {k n : Nat} (hk : k < A.d.mt) (hkn : k < n) (hn : n < A.d.nt) :
    DeclBy (updT false E dv A P k n) (updDeps true A P k n) :=
  updT_declared (E := E) (dv := dv) h hk hkn hn

/-- Footprint of the interchanges at the end. -/
theorem leftSwp_decl (h : LuOK b A P ib mpt) {k : Nat} :
    (∀ x i j, (leftSwp false E A P k).rd x i j → ∃ q, q < P.d.mt ∧ x = P.at' q 0) ∧
    (∀ x i j, (leftSwp false E A P k).wr x i j → ∃ m, k + 1 ≤ m ∧ m < A.d.mt ∧ x = A.at' m k) := by
  constructor
  · intro x i j hr
    obtain ⟨r, c, hR, rfl⟩ := reg_tile (R := fun i j => i ∈ swpOrd true ((k + 1) * A.d.mb + 1) (min A.d.m A.d.n) ∧ j = 0) h.p hr
    rw [mem_swpOrd] at hR
    exact ⟨r / b, h.p.row_mt (by rw [h.Pm]; omega), by rw [hR.2, Nat.zero_div]⟩
  · intro x i j hw
    obtain ⟨r, c, hR, rfl⟩ := reg_tile (R := fun r c => (k + 1) * A.d.mb ≤ r ∧ r < A.d.m ∧ k * A.d.nb ≤ c ∧ c < k * A.d.nb + A.d.nb) h.a hw
    rw [h.a.mb, h.a.nb] at hR
    rw [div_tile (k := k) hR.2.2.1 (by omega)]
    obtain ⟨q1, q2⟩ := row_tile h.a hR.1 hR.2.1
    exact ⟨_, q1, q2, rfl⟩

theorem LuOK.nAP (h : LuOK b A P ib mpt) {m n m' n' : Nat} : A.at' m n ≠ P.at' m' n' := fun e =>
  h.ne (congrArg Prod.fst e)

/-- A task with the dependences of the panel. -/
theorem twinS_panel (h : LuOK b A P ib mpt) {k : Nat} (hk : k < A.d.mt) {t : TTask (M × Nat × Nat) α}
    (hd : t.deps = panelDeps false A P k) (ht : DeclBy t (panelDeps true A P k)) : TwinS A P t := by
  have hb : (A.at' (A.d.mt - 1) k, true) ∈ t.deps := by rw [hd]; simp [panelDeps]
  have hp : (P.at' k 0, true) ∈ t.deps := by rw [hd]; simp [panelDeps]
  have hx : ∀ x i j, t.rd x i j ∨ t.wr x i j → ∃ w, (x, w) ∈ panelDeps true A P k := fun x i j hx =>
    hx.elim (ht.1 x i j) fun h => ⟨_, ht.2 x i j h⟩
  have hA : ∀ m c i j, t.rd (A.at' m c) i j ∨ t.wr (A.at' m c) i j → (A.at' (A.d.mt - 1) c, true) ∈ t.deps := by
    intro m c i j hh
    obtain ⟨w, hw⟩ := hx _ _ _ hh
    rcases (panelDeps_true hk hw).2 with ⟨m', _, _, e⟩ | e
    · rw [TMat.at'_inj] at e; rw [e.2]; exact hb
    · exact absurd e h.nAP
  have hP : ∀ m c i j, t.rd (P.at' m c) i j ∨ t.wr (P.at' m c) i j → (P.at' m c, true) ∈ t.deps := by
    intro m c i j hh
    obtain ⟨w, hw⟩ := hx _ _ _ hh
    rcases (panelDeps_true hk hw).2 with ⟨m', _, _, e⟩ | e
    · exact absurd e.symm h.nAP
    · rw [e]; exact hp
  refine ⟨fun x i j hh => ?_, fun m c i j hh => ⟨_, hA m c i j (Or.inl hh)⟩, fun m c i j hh => hA m c i j (Or.inr hh),
    fun m c i j hh => ⟨_, hP m c i j (Or.inl hh)⟩, fun m c i j hh => hP m c i j (Or.inr hh)⟩
  obtain ⟨w, hw⟩ := hx _ _ _ hh
  rcases (panelDeps_true hk hw).2 with ⟨m', _, _, e⟩ | e
  · exact Or.inl ⟨_, _, e⟩
  · exact Or.inr ⟨_, _, e⟩

theorem twinS_upd (h : LuOK b A P ib mpt) {k n : Nat} (hk : k < A.d.mt) (hkn : k < n) (hn : n < A.d.nt) :
    TwinS A P (updT false E dv A P k n) := by
  have ht := updT_decl (E := E) (dv := dv) h hk hkn hn
  have hd : (updT false E dv A P k n).deps = updDeps false A P k n := rfl
  set t := updT false E dv A P k n with htd
  have hb : (A.at' (A.d.mt - 1) k, false) ∈ t.deps := by rw [hd]; simp [updDeps]
  have hbn : (A.at' (A.d.mt - 1) n, true) ∈ t.deps := by rw [hd]; simp [updDeps]
  have hp : (P.at' k 0, false) ∈ t.deps := by rw [hd]; simp [updDeps]
  refine ⟨fun x i j hh => ?_, fun m c i j hh => ?_, fun m c i j hh => ?_, fun m c i j hh => ?_, fun m c i j hh => ?_⟩
  · obtain ⟨w, hw⟩ : ∃ w, (x, w) ∈ updDeps true A P k n := hh.elim (ht.1 x i j) fun h => ⟨_, ht.2 x i j h⟩
    rcases updDeps_true hk hw with ⟨-, ⟨m', _, _, e⟩ | e⟩ | ⟨-, m', _, _, e⟩
    · exact Or.inl ⟨_, _, e⟩
    · exact Or.inr ⟨_, _, e⟩
    · exact Or.inl ⟨_, _, e⟩
  · obtain ⟨w, hw⟩ := ht.1 _ _ _ hh
    rcases updDeps_true hk hw with ⟨-, ⟨m', _, _, e⟩ | e⟩ | ⟨-, m', _, _, e⟩
    · rw [TMat.at'_inj] at e; rw [e.2]; exact ⟨_, hb⟩
    · exact absurd e h.nAP
    · rw [TMat.at'_inj] at e; rw [e.2]; exact ⟨_, hbn⟩
  · rcases updDeps_true hk (ht.2 _ _ _ hh) with ⟨hf, -⟩ | ⟨-, m', _, _, e⟩
    · cases hf
    · rw [TMat.at'_inj] at e; rw [e.2]; exact hbn
  · obtain ⟨w, hw⟩ := ht.1 _ _ _ hh
    rcases updDeps_true hk hw with ⟨-, ⟨m', _, _, e⟩ | e⟩ | ⟨-, m', _, _, e⟩
    · exact absurd e.symm h.nAP
    · rw [e]; exact ⟨_, hp⟩
    · exact absurd e.symm h.nAP
  · rcases updDeps_true hk (ht.2 _ _ _ hh) with ⟨hf, -⟩ | ⟨-, m', _, _, e⟩
    · cases hf
    · exact absurd e.symm h.nAP

theorem twinS_nop (l : List ((M × Nat × Nat) × Bool)) : TwinS A P (nopT (α := α) l) :=
  ⟨fun _ _ _ h => h.elim False.elim False.elim, fun _ _ _ _ h => h.elim, fun _ _ _ _ h => h.elim,
    fun _ _ _ _ h => h.elim, fun _ _ _ _ h => h.elim⟩

theorem LuOK.pmt (h : LuOK b A P ib mpt) {q : Nat} (hq : q < P.d.mt) : q < min A.d.mt A.d.nt := by
  have h1 := h.p.lt_mt.mp hq
  rw [h.Pm] at h1
  exact lt_min (h.a.lt_mt.mpr (by omega)) (h.a.lt_nt.mpr (by omega))

theorem LuOK.pmt_pos (h : LuOK b A P ib mpt) (h0 : 0 < min A.d.mt A.d.nt) : 0 < P.d.mt := by
  have h1 := h.a.lt_mt.mp (show 0 < A.d.mt by omega)
  have h2 := h.a.lt_nt.mp (show 0 < A.d.nt by omega)
  refine h.p.lt_mt.mpr ?_
  rw [h.Pm]; omega

theorem twinT_left (h : LuOK b A P ib mpt) {k : Nat} (hk : k < min A.d.mt A.d.nt) :
    TwinT (min A.d.mt A.d.nt) A P (leftSwp false E A P k) := by
  have ht := leftSwp_decl (E := E) h (k := k)
  have hd : (leftSwp false E A P k).deps = secCol false P 0 P.d.mt 0 false ++ secCol false A (k + 1) (A.d.mt - 1) k true ++
      [(A.at' (A.d.mt - 1) k, true)] := rfl
  have hp0 : 0 < P.d.mt := h.pmt_pos (by omega)
  set t := leftSwp false E A P k with htd
  refine ⟨fun x i j hh => ?_, fun m c i j hh => ?_, fun m c i j hh => ?_, fun m c i j hh => ?_, fun m c i j hh => ?_⟩
  · rcases hh with hh | hh
    · obtain ⟨q, _, e⟩ := ht.1 _ _ _ hh; exact Or.inr ⟨_, _, e⟩
    · obtain ⟨q, _, _, e⟩ := ht.2 _ _ _ hh; exact Or.inl ⟨_, _, e⟩
  · obtain ⟨q, _, e⟩ := ht.1 _ _ _ hh; exact absurd e h.nAP
  · obtain ⟨q, _, _, e⟩ := ht.2 _ _ _ hh
    rw [TMat.at'_inj] at e; rw [e.2, hd]; simp
  · obtain ⟨q, hq, e⟩ := ht.1 _ _ _ hh
    rw [TMat.at'_inj] at e
    refine ⟨h.pmt (by omega), e.2, false, ?_⟩
    rw [hd]; unfold secCol; simp [hp0]
  · obtain ⟨q, _, _, e⟩ := ht.2 _ _ _ hh; exact absurd e.symm h.nAP

theorem twinT_nop {N : Nat} (l : List ((M × Nat × Nat) × Bool)) : TwinT N A P (nopT (α := α) l) :=
  ⟨fun _ _ _ h => h.elim False.elim False.elim, fun _ _ _ _ h => h.elim, fun _ _ _ _ h => h.elim,
    fun _ _ _ _ h => h.elim, fun _ _ _ _ h => h.elim⟩

/-- The tasks of step `k`. -/
theorem tasks_getrfStep (rg : Bool) (k : Nat) : tasks (getrfStep rg E mag dv big ib mpt A P k) =
    (span (k + 1) (A.d.mt - 1)).map (fun m => nopT [(A.at' m k, false), (A.at' k k, true)]) ++
    ([panelT (panelDeps rg A P k) E mag dv big ib mpt A P k, adjustT (panelDeps rg A P k) E A P k] ++
    (span (k + 1) A.d.nt).map fun n => updT rg E dv A P k n) := by
  unfold getrfStep
  rw [tasks_append, tasks_append, tasks_okT, tasks_okT, List.append_assoc]
  rfl

theorem tasks_pzgetrf (rg : Bool) : tasks (pzgetrf rg E mag dv big ib mpt A P) =
    (List.range (min A.d.mt A.d.nt)).flatMap (fun k => tasks (getrfStep rg E mag dv big ib mpt A P k)) ++
    getrfTail rg E A P := by
  unfold pzgetrf
  rw [tasks_append, tasks_flatMap, tasks_okT]

/-- All the conflicts inside `plasma_pzgetrf` are ordered even if array sections are matched by
base address. -/
theorem pzgetrf_cov (h : LuOK b A P ib mpt) : TCovered (tasks (pzgetrf false E mag dv big ib mpt A P)) := by
  rw [tasks_pzgetrf]
  unfold getrfTail
  apply twin_cov
  · intro t ht
    obtain ⟨k, hk, ht⟩ := List.mem_flatMap.mp ht
    rw [List.mem_range] at hk
    rw [tasks_getrfStep] at ht
    simp only [List.mem_append, List.mem_map, List.mem_cons, List.not_mem_nil, or_false] at ht
    rcases ht with ⟨m, _, rfl⟩ | (rfl | rfl) | ⟨n, hn, rfl⟩
    · exact twinS_nop (A := A) _
    · exact twinS_panel h (by omega) rfl (panelT_decl h hk)
    · exact twinS_panel h (by omega) rfl (adjustT_decl h hk)
    · rw [mem_span] at hn
      exact twinS_upd h (by omega) hn.1 hn.2
  · intro t ht
    obtain ⟨k, hk, ht⟩ := List.mem_flatMap.mp ht
    rw [List.mem_range] at hk
    simp only [List.mem_map, List.mem_cons] at ht
    rcases ht with rfl | ⟨m, _, rfl⟩
    · exact twinT_left h (by omega)
    · exact twinT_nop (A := A) _

/-- The tasks touch `A` and `P` only. -/
theorem pzgetrf_out (h : LuOK b A P ib mpt) : ∀ t ∈ tasks (pzgetrf false E mag dv big ib mpt A P), ∀ x i j,
    t.rd x i j ∨ t.wr x i j → (∃ m c, x = A.at' m c) ∨ ∃ q c, x = P.at' q c := by
  intro t ht
  rw [tasks_pzgetrf] at ht
  rcases List.mem_append.mp ht with ht | ht
  · obtain ⟨k, hk, ht⟩ := List.mem_flatMap.mp ht
    rw [List.mem_range] at hk
    rw [tasks_getrfStep] at ht
    simp only [List.mem_append, List.mem_map, List.mem_cons, List.not_mem_nil, or_false] at ht
    rcases ht with ⟨m, _, rfl⟩ | (rfl | rfl) | ⟨n, hn, rfl⟩
    · exact (twinS_nop (A := A) _).out
    · exact (twinS_panel h (by omega) rfl (panelT_decl h hk)).out
    · exact (twinS_panel h (by omega) rfl (adjustT_decl h hk)).out
    · rw [mem_span] at hn
      exact (twinS_upd h (by omega) hn.1 hn.2).out
  · unfold getrfTail at ht
    rcases List.mem_append.mp ht with ht | ht
    · obtain ⟨m', _, rfl⟩ := List.mem_map.mp ht
      exact (twinS_nop (A := A) _).out
    · obtain ⟨k, hk, ht⟩ := List.mem_flatMap.mp ht
      rw [List.mem_range] at hk
      simp only [List.mem_map, List.mem_cons] at ht
      rcases ht with rfl | ⟨m', _, rfl⟩
      · exact (twinT_left h (by omega)).out
      · exact (twinS_nop (A := A) _).out

/-- Up to three tile rows, or with one tile column, every access to a tile is preceded by a
dependence on that tile. -/
theorem pzgetrf_pre (h : LuOK b A P ib mpt) (hs : A.d.mt ≤ 3 ∨ A.d.nt ≤ 1) :
    PreAnch A (tasks (pzgetrf false E mag dv big ib mpt A P)) := by
  rw [tasks_pzgetrf]
  refine PreAnch.append (PreAnch.flatMap fun k hk => ?_) ?_
  · rw [List.mem_range] at hk
    rw [tasks_getrfStep]
    set Q := (span (k + 1) (A.d.mt - 1)).map (fun m => nopT (α := α) [(A.at' m k, false), (A.at' k k, true)]) with hQ
    have hlen : Q.length = A.d.mt - 1 - (k + 1) := by simp [hQ, span]
    intro j t' hj m c p q hx
    by_cases hjQ : j < Q.length
    · exfalso
      rw [List.getElem?_append_left hjQ] at hj
      obtain ⟨m', -, rfl⟩ := List.mem_map.mp (List.mem_of_getElem? hj)
      exact hx.elim id id
    have hj' := hj
    rw [List.getElem?_append_right (by omega)] at hj'
    have hkk : k < A.d.mt - 1 → (∃ w, (A.at' k k, w) ∈ t'.deps) → k < m → m < A.d.mt - 1 → c = k →
        ∃ (i : Nat) (t : TTask (M × Nat × Nat) α) (w : Bool), (Q ++ ([panelT (panelDeps false A P k) E mag dv big ib mpt A P k,
          adjustT (panelDeps false A P k) E A P k] ++ (span (k + 1) A.d.nt).map fun n => updT false E dv A P k n))[i]? = some t ∧
          (A.at' m c, w) ∈ t.deps ∧ Relation.ReflTransGen (TEdge (Q ++ ([panelT (panelDeps false A P k) E mag dv big ib mpt A P k,
          adjustT (panelDeps false A P k) E A P k] ++ (span (k + 1) A.d.nt).map fun n => updT false E dv A P k n))) i j := by
      rintro hk1 ⟨w, hw⟩ hm1 hm2 rfl
      have hn : (Q ++ ([panelT (panelDeps false A P c) E mag dv big ib mpt A P c,
          adjustT (panelDeps false A P c) E A P c] ++ (span (c + 1) A.d.nt).map fun n => updT false E dv A P c n))[m - (c + 1)]? =
          some (nopT [(A.at' m c, false), (A.at' c c, true)]) := by
        rw [List.getElem?_append_left (by omega), hQ, List.getElem?_map]
        unfold span
        rw [List.getElem?_range' (by omega)]
        simp [show c + 1 + (m - (c + 1)) = m by omega]
      refine ⟨m - (c + 1), _, false, hn, by simp [nopT], Relation.ReflTransGen.single ⟨by omega, _, t', hn, hj, Or.inr ?_⟩⟩
      exact ⟨(A.at' c c, true), by simp [nopT], _, hw, rfl, Or.inl rfl⟩
    have direct : (∃ w, (A.at' m c, w) ∈ t'.deps) → ∃ (i : Nat) (t : TTask (M × Nat × Nat) α) (w : Bool), (Q ++ ([panelT (panelDeps false A P k) E mag dv big ib mpt A P k,
          adjustT (panelDeps false A P k) E A P k] ++ (span (k + 1) A.d.nt).map fun n => updT false E dv A P k n))[i]? = some t ∧
          (A.at' m c, w) ∈ t.deps ∧ Relation.ReflTransGen (TEdge (Q ++ ([panelT (panelDeps false A P k) E mag dv big ib mpt A P k,
          adjustT (panelDeps false A P k) E A P k] ++ (span (k + 1) A.d.nt).map fun n => updT false E dv A P k n))) i j :=
      fun ⟨w, hw⟩ => ⟨j, t', w, hj, hw, Relation.ReflTransGen.refl⟩
    have panelC : t'.deps = panelDeps false A P k → DeclBy t' (panelDeps true A P k) → ∃ (i : Nat) (t : TTask (M × Nat × Nat) α) (w : Bool), (Q ++ ([panelT (panelDeps false A P k) E mag dv big ib mpt A P k,
          adjustT (panelDeps false A P k) E A P k] ++ (span (k + 1) A.d.nt).map fun n => updT false E dv A P k n))[i]? = some t ∧
          (A.at' m c, w) ∈ t.deps ∧ Relation.ReflTransGen (TEdge (Q ++ ([panelT (panelDeps false A P k) E mag dv big ib mpt A P k,
          adjustT (panelDeps false A P k) E A P k] ++ (span (k + 1) A.d.nt).map fun n => updT false E dv A P k n))) i j := fun hd ht => by
      obtain ⟨w, hw⟩ : ∃ w, (A.at' m c, w) ∈ panelDeps true A P k := hx.elim (ht.1 _ _ _) fun h => ⟨_, ht.2 _ _ _ h⟩
      rcases (panelDeps_true (show k < A.d.mt by omega) hw).2 with ⟨m', h1, h2, e⟩ | e
      · rw [TMat.at'_inj] at e
        obtain ⟨rfl, rfl⟩ := e
        by_cases e1 : m = A.d.mt - 1
        · refine direct ⟨true, ?_⟩
          rw [hd, e1]; simp [panelDeps]
        by_cases e2 : m = c
        · refine direct ⟨true, ?_⟩
          rw [hd, e2]; unfold panelDeps secCol; simp [show c < A.d.mt - 1 by omega]
        · refine hkk (by omega) ⟨true, ?_⟩ (by omega) (by omega) rfl
          rw [hd]; unfold panelDeps secCol; simp [show c < A.d.mt - 1 by omega]
      · exact absurd e h.nAP
    have hmem := List.mem_of_getElem? hj'
    simp only [List.mem_append, List.mem_map, List.mem_cons, List.not_mem_nil, or_false] at hmem
    rcases hmem with (rfl | rfl) | ⟨n, hn, rfl⟩
    · exact panelC rfl (panelT_decl h hk)
    · exact panelC rfl (adjustT_decl h hk)
    · rw [mem_span] at hn
      have ht := updT_decl (E := E) (dv := dv) h (show k < A.d.mt by omega) hn.1 hn.2
      have hd : (updT false E dv A P k n).deps = updDeps false A P k n := rfl
      obtain ⟨w, hw⟩ : ∃ w, (A.at' m c, w) ∈ updDeps true A P k n := hx.elim (ht.1 _ _ _) fun h => ⟨_, ht.2 _ _ _ h⟩
      rcases updDeps_true (show k < A.d.mt by omega) hw with ⟨-, ⟨m', h1, h2, e⟩ | e⟩ | ⟨-, m', h1, h2, e⟩
      · rw [TMat.at'_inj] at e
        obtain ⟨rfl, rfl⟩ := e
        by_cases e1 : m = A.d.mt - 1
        · refine direct ⟨false, ?_⟩
          rw [hd, e1]; simp [updDeps]
        by_cases e2 : m = c
        · refine direct ⟨false, ?_⟩
          rw [hd, e2]; unfold updDeps secCol; simp [show c < A.d.mt - 1 by omega]
        · refine hkk (by omega) ⟨false, ?_⟩ (by omega) (by omega) rfl
          rw [hd]; unfold updDeps secCol; simp [show c < A.d.mt - 1 by omega]
      · exact absurd e h.nAP
      · rw [TMat.at'_inj] at e
        obtain ⟨rfl, rfl⟩ := e
        refine direct ⟨true, ?_⟩
        rw [hd]
        have : m = k ∨ (m = k + 1 ∧ k + 1 < A.d.mt - 1) ∨ m = A.d.mt - 1 := by omega
        rcases this with rfl | ⟨rfl, h3⟩ | rfl
        · simp [updDeps]
        · unfold updDeps secCol; simp [h3]
        · simp [updDeps]
  · unfold getrfTail
    refine PreAnch.append (PreAnch.of ?_) (PreAnch.flatMap fun k hk => PreAnch.of ?_)
    · intro t ht m n p q hx
      obtain ⟨m', _, rfl⟩ := List.mem_map.mp ht
      exact (hx.elim id id : False).elim
    · rw [List.mem_range] at hk
      intro t ht m n p q hx
      simp only [List.mem_map, List.mem_cons] at ht
      rcases ht with rfl | ⟨m', _, rfl⟩
      · have hl := leftSwp_decl (E := E) h (k := k)
        rcases hx with hx | hx
        · obtain ⟨q, _, e⟩ := hl.1 _ _ _ hx; exact absurd e h.nAP
        · obtain ⟨m', h1, h2, e⟩ := hl.2 _ _ _ hx
          rw [TMat.at'_inj] at e
          obtain ⟨rfl, rfl⟩ := e
          refine ⟨true, ?_⟩
          show _ ∈ secCol false P 0 P.d.mt 0 false ++ secCol false A (n + 1) (A.d.mt - 1) n true ++
            [(A.at' (A.d.mt - 1) n, true)]
          have : (m = n + 1 ∧ n + 1 < A.d.mt - 1) ∨ m = A.d.mt - 1 := by omega
          rcases this with ⟨rfl, h3⟩ | rfl
          · unfold secCol; simp [h3]
          · simp
      · exact (hx.elim id id : False).elim

theorem pzgetrf_loc (h : LuOK b A P ib mpt) (rg : Bool) :
    ∀ t ∈ tasks (pzgetrf rg E mag dv big ib mpt A P), t.Local := by
  intro t ht
  rw [tasks_pzgetrf] at ht
  rcases List.mem_append.mp ht with ht | ht
  · obtain ⟨k, hk, ht⟩ := List.mem_flatMap.mp ht
    rw [List.mem_range] at hk
    rw [tasks_getrfStep] at ht
    simp only [List.mem_append, List.mem_map, List.mem_cons, List.not_mem_nil, or_false] at ht
    rcases ht with ⟨m, _, rfl⟩ | (rfl | rfl) | ⟨n, hn, rfl⟩
    · exact nopT_local _
    · exact panelT_local h hk
    · exact adjustT_local h
    · exact seqT_local (updBody_local h)
  · unfold getrfTail at ht
    rcases List.mem_append.mp ht with ht | ht
    · obtain ⟨m', _, rfl⟩ := List.mem_map.mp ht
      exact nopT_local _
    · obtain ⟨k, hk, ht⟩ := List.mem_flatMap.mp ht
      simp only [List.mem_map, List.mem_cons] at ht
      rcases ht with rfl | ⟨m', _, rfl⟩
      · exact leftSwp_local h
      · exact nopT_local _

theorem pzgetrf_ins (h : LuFit env b A P ib mpt) (rg : Bool) :
    ∀ t ∈ tasks (pzgetrf rg E mag dv big ib mpt A P), t.Inside (evalid env) := by
  intro t ht
  rw [tasks_pzgetrf] at ht
  rcases List.mem_append.mp ht with ht | ht
  · obtain ⟨k, hk, ht⟩ := List.mem_flatMap.mp ht
    rw [List.mem_range] at hk
    rw [tasks_getrfStep] at ht
    simp only [List.mem_append, List.mem_map, List.mem_cons, List.not_mem_nil, or_false] at ht
    rcases ht with ⟨m, _, rfl⟩ | (rfl | rfl) | ⟨n, hn, rfl⟩
    · exact nopT_inside _
    · exact panelT_inside h hk
    · exact adjustT_inside h hk
    · rw [mem_span] at hn
      exact seqT_inside (updBody_inside h (by omega) hn.1 hn.2)
  · unfold getrfTail at ht
    rcases List.mem_append.mp ht with ht | ht
    · obtain ⟨m', _, rfl⟩ := List.mem_map.mp ht
      exact nopT_inside _
    · obtain ⟨k, hk, ht⟩ := List.mem_flatMap.mp ht
      rw [List.mem_range] at hk
      simp only [List.mem_map, List.mem_cons] at ht
      rcases ht with rfl | ⟨m', _, rfl⟩
      · exact leftSwp_inside h hk
      · exact nopT_inside _

end lu

end Verif.Tile

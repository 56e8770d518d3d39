/-
Effect of `pzgeswp`, and order of its tasks with respect to other tasks.
-/
import Verif.GetrfGood
import Verif.DriverG

namespace Verif.Tile

open Verif.Layout Verif.LU Verif.Panel Finset

set_option linter.unusedSectionVars false

universe u v w

/-! ### Tasks surrounded by dummy tasks -/

section hub
variable {M : Type u} {α : Type v} {ι : Type w}

/-- A block of tasks: dummy tasks `pre g`, the task `T g`, dummy tasks `post g`. -/
def hub (gs : List ι) (pre post : ι → List (TTask M α)) (T : ι → TTask M α) : List (TTask M α) :=
  gs.flatMap fun g => pre g ++ [T g] ++ post g

def Nops (L : List (TTask M α)) : Prop := ∀ t ∈ L, ∃ d, t = nopT d

theorem texec_hub {gs : List ι} {pre post : ι → List (TTask M α)} {T : ι → TTask M α}
    (h1 : ∀ g, Nops (pre g)) (h2 : ∀ g, Nops (post g)) (s : Store M α) :
    texec (hub gs pre post T) s = texec (gs.map T) s := by
  unfold hub
  induction gs generalizing s with
  | nil => rfl
  | cons g gs ih =>
    rw [List.flatMap_cons, texec_append, texec_append, texec_append, texec_nops _ (h1 g), texec_nops _ (h2 g), ih]
    rfl

theorem mem_hub {gs : List ι} {pre post : ι → List (TTask M α)} {T : ι → TTask M α} {t : TTask M α} :
    t ∈ hub gs pre post T ↔ ∃ g ∈ gs, t ∈ pre g ∨ t = T g ∨ t ∈ post g := by
  unfold hub
  simp [or_assoc]

/-- Position of the parts of a block. -/
theorem hub_split {gs : List ι} {pre post : ι → List (TTask M α)} {T : ι → TTask M α} {i : Nat} {t : TTask M α}
    (hi : (hub gs pre post T)[i]? = some t) (hn : ¬ ∃ d, t = nopT d)
    (h1 : ∀ g, Nops (pre g)) (h2 : ∀ g, Nops (post g)) :
    ∃ g ∈ gs, t = T g ∧ ∃ g1 g2 X Y, gs = g1 ++ g :: g2 ∧ X = hub g1 pre post T ∧
      hub gs pre post T = X ++ pre g ++ [T g] ++ post g ++ Y ∧ i = (X ++ pre g).length := by
  unfold hub at hi ⊢
  induction gs generalizing i with
  | nil => simp at hi
  | cons g gs ih =>
    rw [List.flatMap_cons] at hi ⊢
    by_cases hlt : i < (pre g ++ [T g] ++ post g).length
    · rw [List.getElem?_append_left hlt] at hi
      by_cases h3 : i < (pre g).length
      · rw [List.append_assoc, List.getElem?_append_left h3] at hi
        exact absurd (h1 g t (List.mem_of_getElem? hi)) hn
      · rw [List.append_assoc, List.getElem?_append_right (by omega)] at hi
        by_cases h4 : i = (pre g).length
        · rw [h4, Nat.sub_self] at hi
          simp at hi
          exact ⟨g, by simp, hi.symm, [], gs, [], gs.flatMap fun g => pre g ++ [T g] ++ post g, by simp,
            by simp, by simp, by simp [h4]⟩
        · rw [List.getElem?_append_right (by simp; omega)] at hi
          exact absurd (h2 g t (List.mem_of_getElem? hi)) hn
    · rw [List.getElem?_append_right (by omega)] at hi
      obtain ⟨g', hg', ht, g1, g2, X, Y, hgs, hX, he, hl⟩ := ih hi
      refine ⟨g', by simp [hg'], ht, g :: g1, g2, pre g ++ [T g] ++ post g ++ X, Y, by simp [hgs], ?_, ?_, ?_⟩
      · rw [List.flatMap_cons, hX]
      · rw [he]; simp
      · simp only [List.length_append] at hl hlt ⊢; omega

theorem split_unique {β : Type w} {l : List β} (hn : l.Nodup) {x : β} {a b a' b' : List β}
    (h : l = a ++ x :: b) (h' : l = a' ++ x :: b') : a = a' := by
  induction l generalizing a a' with
  | nil => simp at h
  | cons y l ih =>
    have hy : y ∉ l := (List.nodup_cons.1 hn).1
    cases a with
    | nil =>
      cases a' with
      | nil => rfl
      | cons z a' =>
        simp only [List.nil_append, List.cons_append, List.cons.injEq] at h h'
        exact absurd (h'.2 ▸ (by simp [h.1] : y ∈ a' ++ x :: b')) hy
    | cons z a =>
      cases a' with
      | nil =>
        simp only [List.nil_append, List.cons_append, List.cons.injEq] at h h'
        exact absurd (h.2 ▸ (by simp [h'.1] : y ∈ a ++ x :: b)) hy
      | cons z' a' =>
        simp only [List.cons_append, List.cons.injEq] at h h'
        rw [← h.1, ← h'.1, ih (List.nodup_cons.1 hn).2 h.2 h'.2]

/-- The parts of a block in a longer program. -/
structure HubOK (L1 L2 : List (TTask M α)) (gs : List ι) (pre post : ι → List (TTask M α)) (T : ι → TTask M α)
    (own : ι → M → Prop) (ro : M → Prop) : Prop where
  npre : ∀ g, Nops (pre g)
  npost : ∀ g, Nops (post g)
  nd : gs.Nodup
  disj : ∀ g ∈ gs, ∀ g' ∈ gs, ∀ a, own g a → own g' a → g = g'
  wr : ∀ g ∈ gs, ∀ a i j, (T g).wr a i j → own g a
  rd : ∀ g ∈ gs, ∀ a i j, (T g).rd a i j → own g a ∨ ro a
  oro : ∀ g ∈ gs, ∀ a, own g a → ¬ ro a
  nro : ∀ t ∈ L1 ++ L2, ∀ a i j, t.wr a i j → ¬ ro a
  ent : ∀ g ∈ gs, ∀ a, own g a → (a, true) ∈ (T g).deps ∨
    ∃ h, (h, true) ∈ (T g).deps ∧ ∃ t ∈ pre g, (∃ w, (a, w) ∈ t.deps) ∧ (h, true) ∈ t.deps
  ext : ∀ g ∈ gs, ∀ a, own g a → (a, true) ∈ (T g).deps ∨
    ∃ h, (h, true) ∈ (T g).deps ∧ ∃ t ∈ post g, (∃ w, (h, w) ∈ t.deps) ∧ (a, true) ∈ t.deps
  before : ∀ (i : Nat) t, L1[i]? = some t → ∀ g ∈ gs, ∀ a k l, own g a → t.rd a k l ∨ t.wr a k l →
    ∃ (j : Nat) (t' : TTask M α) (a' : M), L1[j]? = some t' ∧ own g a' ∧ (a', true) ∈ t'.deps ∧ Relation.ReflTransGen (TEdge L1) i j
  after : ∀ t ∈ L2, ∀ g ∈ gs, ∀ a k l, own g a → t.rd a k l ∨ t.wr a k l → ∃ w, (a, w) ∈ t.deps

theorem tedge_of {P : List (TTask M α)} {i j : Nat} {t t' : TTask M α} (hij : i < j) (hi : P[i]? = some t)
    (hj : P[j]? = some t') {a : M} {w w' : Bool} (h : (a, w) ∈ t.deps) (h' : (a, w') ∈ t'.deps)
    (hw : w = true ∨ w' = true) : TEdge P i j :=
  ⟨hij, t, t', hi, hj, Or.inr ⟨_, h, _, h', rfl, hw⟩⟩

theorem tedge_insert {L1 L2 : List (TTask M α)} (S : List (TTask M α)) {i j : Nat} (h : TEdge (L1 ++ L2) i j) :
    TEdge (L1 ++ S ++ L2) (if i < L1.length then i else i + S.length) (if j < L1.length then j else j + S.length) := by
  obtain ⟨hij, t, t', hi, hj, hd⟩ := h
  have key : ∀ (i : Nat) t, (L1 ++ L2)[i]? = some t →
      (L1 ++ S ++ L2)[if i < L1.length then i else i + S.length]? = some t := by
    intro i t hi
    split
    · rename_i h
      rw [List.getElem?_append_left h] at hi
      rw [List.append_assoc, List.getElem?_append_left h]; exact hi
    · rename_i h
      rw [List.getElem?_append_right (by omega)] at hi
      rw [List.getElem?_append_right (by simp; omega)]
      rw [← hi]; congr 1; simp; omega
  refine ⟨?_, t, t', key i t hi, key j t' hj, hd⟩
  split <;> split <;> omega

theorem hub_covered {L1 L2 : List (TTask M α)} {gs : List ι} {pre post : ι → List (TTask M α)}
    {T : ι → TTask M α} {own : ι → M → Prop} {ro : M → Prop} (h : HubOK L1 L2 gs pre post T own ro)
    (hc : TCovered (L1 ++ L2)) : TCovered (L1 ++ hub gs pre post T ++ L2) := by
  intro i j t t' hij hi hj hconf
  set S := hub gs pre post T with hS
  have hnt : ∀ d, t ≠ nopT d := by
    rintro d rfl
    obtain ⟨a, k, l, (⟨hw, _⟩ | ⟨hw, _⟩)⟩ := hconf <;> exact hw
  have hnt' : ∀ d, t' ≠ nopT d := by
    rintro d rfl
    obtain ⟨a, k, l, (⟨_, hw | hw⟩ | ⟨_, hw⟩)⟩ := hconf <;> exact hw
  -- positions
  have pos : ∀ (i : Nat) t, (L1 ++ S ++ L2)[i]? = some t → (i < L1.length ∧ L1[i]? = some t) ∨
      (∃ q, i = L1.length + q ∧ S[q]? = some t) ∨ (∃ q, i = L1.length + S.length + q ∧ L2[q]? = some t) := by
    intro i t hi
    by_cases h1 : i < L1.length
    · rw [List.append_assoc, List.getElem?_append_left h1] at hi; exact Or.inl ⟨h1, hi⟩
    · by_cases h2 : i < L1.length + S.length
      · rw [List.getElem?_append_left (by simpa using h2), List.getElem?_append_right (by omega)] at hi
        exact Or.inr (Or.inl ⟨i - L1.length, by omega, hi⟩)
      · rw [List.getElem?_append_right (by simp; omega)] at hi
        refine Or.inr (Or.inr ⟨i - (L1.length + S.length), by omega, ?_⟩)
        rw [← hi]; congr 1; simp
  have at2 : ∀ (q : Nat) t, S[q]? = some t → (L1 ++ S ++ L2)[L1.length + q]? = some t := by
    intro q t hq
    have : q < S.length := by rw [List.getElem?_eq_some_iff] at hq; exact hq.1
    rw [List.getElem?_append_left (by simp; omega), List.getElem?_append_right (by omega)]
    simpa using hq
  have at1 : ∀ (q : Nat) t, L1[q]? = some t → (L1 ++ S ++ L2)[q]? = some t := by
    intro q t hq
    have : q < L1.length := by rw [List.getElem?_eq_some_iff] at hq; exact hq.1
    rw [List.append_assoc, List.getElem?_append_left this]; exact hq
  have at3 : ∀ (q : Nat) t, L2[q]? = some t → (L1 ++ S ++ L2)[L1.length + S.length + q]? = some t := by
    intro q t hq
    rw [List.getElem?_append_right (by simp)]
    simpa using hq
  -- tasks outside of the block
  have out : ∀ (i' j' : Nat), (L1 ++ L2)[i']? = some t → (L1 ++ L2)[j']? = some t' → i' < j' →
      (if i' < L1.length then i' else i' + S.length) = i → (if j' < L1.length then j' else j' + S.length) = j →
      Relation.TransGen (TEdge (L1 ++ S ++ L2)) i j := by
    intro i' j' h1 h2 h3 h4 h5
    rw [← h4, ← h5]
    exact Relation.TransGen.lift (fun i => if i < L1.length then i else i + S.length)
      (fun _ _ he => tedge_insert S he) _ _ (hc i' j' t t' h3 h1 h2 hconf)
  -- a task before and a task of the block
  rcases pos i t hi with ⟨hi1, hi2⟩ | ⟨q, rfl, hq⟩ | ⟨q, rfl, hq⟩
  · rcases pos j t' hj with ⟨hj1, hj2⟩ | ⟨q', rfl, hq'⟩ | ⟨q', rfl, hq'⟩
    · refine out i j ?_ ?_ hij (by rw [if_pos hi1]) (by rw [if_pos hj1])
      · rw [List.getElem?_append_left hi1]; exact hi2
      · rw [List.getElem?_append_left hj1]; exact hj2
    · -- before, block
      obtain ⟨g, hg, rfl, g1, g2, X, Y, hgs, hX, he, rfl⟩ := hub_split hq' (fun ⟨d, hd⟩ => hnt' d hd) h.npre h.npost
      have htch : ∃ a k l, own g a ∧ (t.rd a k l ∨ t.wr a k l) := by
        obtain ⟨a, k, l, (⟨hw, hr | hw'⟩ | ⟨hr, hw'⟩)⟩ := hconf
        · rcases h.rd g hg a k l hr with ho | hro
          · exact ⟨a, k, l, ho, Or.inr hw⟩
          · exact absurd hro (h.nro t (List.mem_append_left _ (List.mem_of_getElem? hi2)) a k l hw)
        · exact ⟨a, k, l, h.wr g hg a k l hw', Or.inr hw⟩
        · exact ⟨a, k, l, h.wr g hg a k l hw', Or.inl hr⟩
      obtain ⟨a, k, l, ho, hrw⟩ := htch
      obtain ⟨p, tp, a', hp, ho', hd, hreach⟩ := h.before i t hi2 g hg a k l ho hrw
      have hpl : p < L1.length := by rw [List.getElem?_eq_some_iff] at hp; exact hp.1
      have hr1 : Relation.ReflTransGen (TEdge (L1 ++ S ++ L2)) i p :=
        Relation.ReflTransGen.mono (fun _ _ h => by
          rw [List.append_assoc]; exact tedge_append_left _ h) _ _ hreach
      rcases h.ent g hg a' ho' with hdT | ⟨hb, hbT, tn, htn, ⟨w, hw⟩, hbn⟩
      · exact Relation.TransGen.tail' hr1 (tedge_of (by omega) (at1 _ _ hp) (at2 _ _ hq') hd hdT (Or.inl rfl))
      · obtain ⟨z, hz, hzt⟩ := List.getElem_of_mem htn
        have hzS : S[X.length + z]? = some tn := by
          rw [hS, he, List.append_assoc, List.append_assoc, List.append_assoc, List.getElem?_append_right (by omega),
            List.getElem?_append_left (by omega), Nat.add_sub_cancel_left, List.getElem?_eq_getElem hz, hzt]
        refine Relation.TransGen.tail (Relation.TransGen.tail' hr1 (tedge_of (by omega) (at1 _ _ hp) (at2 _ _ hzS)
          hd hw (Or.inl rfl))) (tedge_of ?_ (at2 _ _ hzS) (at2 _ _ hq') hbn hbT (Or.inl rfl))
        simp only [List.length_append]; omega
    · refine out i (L1.length + q') ?_ ?_ (by omega) (by rw [if_pos hi1]) (by rw [if_neg (by omega)]; omega)
      · rw [List.getElem?_append_left hi1]; exact hi2
      · rw [List.getElem?_append_right (by omega)]; simpa using hq'
  · obtain ⟨g, hg, rfl, g1, g2, X, Y, hgs, hX, he, rfl⟩ := hub_split hq (fun ⟨d, hd⟩ => hnt d hd) h.npre h.npost
    rcases pos j t' hj with ⟨hj1, hj2⟩ | ⟨q', rfl, hq'⟩ | ⟨q', rfl, hq'⟩
    · omega
    · -- both in the block: no conflict
      exfalso
      obtain ⟨g', hg', rfl, g1', g2', X', Y', hgs', hX', he', rfl⟩ := hub_split hq' (fun ⟨d, hd⟩ => hnt' d hd) h.npre h.npost
      have hgg : g = g' := by
        obtain ⟨a, k, l, (⟨hw, hr | hw'⟩ | ⟨hr, hw'⟩)⟩ := hconf
        · have ho := h.wr g hg a k l hw
          rcases h.rd g' hg' a k l hr with ho' | hro
          · exact h.disj g hg g' hg' a ho ho'
          · exact absurd hro (h.oro g hg a ho)
        · exact h.disj g hg g' hg' a (h.wr g hg a k l hw) (h.wr g' hg' a k l hw')
        · have ho := h.wr g' hg' a k l hw'
          rcases h.rd g hg a k l hr with ho' | hro
          · exact h.disj g hg g' hg' a ho' ho
          · exact absurd hro (h.oro g' hg' a ho)
      subst hgg
      have := split_unique h.nd hgs hgs'
      rw [hX, hX', this] at hij
      omega
    · -- block, after
      have htch : ∃ a k l, own g a ∧ (t'.rd a k l ∨ t'.wr a k l) := by
        obtain ⟨a, k, l, (⟨hw, hr | hw'⟩ | ⟨hr, hw'⟩)⟩ := hconf
        · exact ⟨a, k, l, h.wr g hg a k l hw, Or.inl hr⟩
        · exact ⟨a, k, l, h.wr g hg a k l hw, Or.inr hw'⟩
        · rcases h.rd g hg a k l hr with ho | hro
          · exact ⟨a, k, l, ho, Or.inr hw'⟩
          · exact absurd hro (h.nro t' (List.mem_append_right _ (List.mem_of_getElem? hq')) a k l hw')
      obtain ⟨a, k, l, ho, hrw⟩ := htch
      obtain ⟨w', hw'⟩ := h.after t' (List.mem_of_getElem? hq') g hg a k l ho hrw
      rcases h.ext g hg a ho with hdT | ⟨hb, hbT, tn, htn, ⟨w, hw⟩, han⟩
      · exact Relation.TransGen.single (tedge_of hij hi hj hdT hw' (Or.inl rfl))
      · obtain ⟨z, hz, hzt⟩ := List.getElem_of_mem htn
        have hzS : S[X.length + (pre g).length + 1 + z]? = some tn := by
          rw [hS, he, List.getElem?_append_left (by simp; omega), List.getElem?_append_right (by simp; omega)]
          rw [← hzt, ← List.getElem?_eq_getElem hz]; congr 1; simp; omega
        have hzl : X.length + (pre g).length + 1 + z < S.length := by
          rw [List.getElem?_eq_some_iff] at hzS; exact hzS.1
        refine Relation.TransGen.tail (Relation.TransGen.single (tedge_of ?_ hi (at2 _ _ hzS) hbT hw (Or.inl rfl)))
          (tedge_of ?_ (at2 _ _ hzS) hj han hw' (Or.inl rfl))
        · simp only [List.length_append]; omega
        · omega
  · rcases pos j t' hj with ⟨hj1, hj2⟩ | ⟨q', rfl, hq'⟩ | ⟨q', rfl, hq'⟩
    · omega
    · have : q' < S.length := by rw [List.getElem?_eq_some_iff] at hq'; exact hq'.1
      omega
    · refine out (L1.length + q) (L1.length + q') ?_ ?_ (by omega) (by rw [if_neg (by omega)]; omega)
        (by rw [if_neg (by omega)]; omega)
      · rw [List.getElem?_append_right (by omega)]; simpa using hq
      · rw [List.getElem?_append_right (by omega)]; simpa using hq'

end hub

/-! ### Effect -/

section
variable {M : Type u} {α : Type v} {b : Nat} {E : IntCode α} {A P : TMat M}

/-- The task of column `n` (compute/pzgeswp.c:47-71). -/
def rowT (rg : Bool) (E : IntCode α) (fwd : Bool) (A P : TMat M) (n : Nat) : TTask (M × Nat × Nat) α :=
  swpRows (secCol rg P 0 P.d.mt 0 false ++ secCol rg A 0 (A.d.mt - 1) n true ++
    [(A.at' (A.d.mt - 1) n, true)]) E A P 0 (n * A.d.nb) (n * A.d.nb + A.d.nview n) fwd 1 A.d.m

/-- The task of row `m` (compute/pzgeswp.c:88-105). -/
def colT (rg : Bool) (E : IntCode α) (fwd : Bool) (A P : TMat M) (m : Nat) : TTask (M × Nat × Nat) α :=
  swpCols (secCol rg P 0 P.d.mt 0 false ++ [(A.at' m 0, true), (A.at' m (A.d.nt - 1), true)])
    E A P (m * A.d.mb) (m * A.d.mb + A.d.mview m) fwd 1 A.d.n

/-- The dummy tasks (compute/pzgeswp.c:32-45, 73-82, 84-91, 107-112). -/
def rowPre (A : TMat M) (n : Nat) : List (TTask (M × Nat × Nat) α) :=
  (span 1 (A.d.mt - 1)).map fun m => nopT [(A.at' m n, false), (A.at' 0 n, true)]
def rowPost (A : TMat M) (n : Nat) : List (TTask (M × Nat × Nat) α) :=
  (span 1 (A.d.mt - 1)).map fun m => nopT [(A.at' 0 n, false), (A.at' m n, true)]
def colPre (A : TMat M) (m : Nat) : List (TTask (M × Nat × Nat) α) :=
  (span 1 (A.d.nt - 1)).map fun n => nopT [(A.at' m n, false), (A.at' m 0, true)]
def colPost (A : TMat M) (m : Nat) : List (TTask (M × Nat × Nat) α) :=
  (span 1 (A.d.nt - 1)).map fun n => nopT [(A.at' m 0, false), (A.at' m n, true)]

theorem pzgeswp_rows {rg fwd : Bool} : pzgeswp rg E true fwd A P =
    hub (List.range A.d.nt) (rowPre A) (rowPost A) (rowT rg E fwd A P) := by
  unfold pzgeswp; rw [if_pos rfl]; rfl

theorem pzgeswp_cols {rg fwd : Bool} : pzgeswp rg E false fwd A P =
    hub (List.range A.d.mt) (colPre A) (colPost A) (colT rg E fwd A P) := by
  unfold pzgeswp; rw [if_neg (by simp)]; rfl

theorem nops_map {β : Type w} (l : List β) (d : β → List (M × Bool)) :
    Nops (l.map fun x => (nopT (d x) : TTask M α)) := by
  intro t ht
  obtain ⟨x, _, rfl⟩ := List.mem_map.mp ht
  exact ⟨_, rfl⟩

theorem nops_rowPre (A : TMat M) (n : Nat) : Nops (rowPre A n : List (TTask (M × Nat × Nat) α)) := nops_map _ _
theorem nops_rowPost (A : TMat M) (n : Nat) : Nops (rowPost A n : List (TTask (M × Nat × Nat) α)) := nops_map _ _
theorem nops_colPre (A : TMat M) (n : Nat) : Nops (colPre A n : List (TTask (M × Nat × Nat) α)) := nops_map _ _
theorem nops_colPost (A : TMat M) (n : Nat) : Nops (colPost A n : List (TTask (M × Nat × Nat) α)) := nops_map _ _

theorem lt_succ_div_mul {b : Nat} (hb : 0 < b) (c : Nat) : c < (c / b + 1) * b := by
  have := Nat.div_add_mod c b
  have := Nat.mod_lt c hb
  rw [Nat.add_mul, Nat.mul_comm]; omega

theorem rowT_eff (hA : A.Al b) (rg fwd : Bool) (n : Nat) (s : Store (M × Nat × Nat) α) :
    (∀ r c, r < A.d.m → n * b ≤ c → c < n * b + A.d.nview n →
      A.el ((rowT rg E fwd A P n).run s) r c =
        A.el s (permL (swpOrd fwd 1 A.d.m) (pivAt E P 0 A.d.m s) r) c) ∧
    (∀ r c, ¬ (r < A.d.m ∧ n * b ≤ c ∧ c < n * b + A.d.nview n) →
      A.el ((rowT rg E fwd A P n).run s) r c = A.el s r c) ∧
    (∀ x, x.1 ≠ A.id → (rowT rg E fwd A P n).run s x = s x) := by
  have hA1 : 0 < A.d.mb := by rw [hA.mb]; exact hA.pos
  have hA2 : 0 < A.d.nb := by rw [hA.nb]; exact hA.pos
  unfold rowT swpRows
  refine ⟨fun r c h1 h2 h3 => ?_, fun r c hn => ?_, fun x hx => gop_ne s hx⟩
  · rw [gop_in hA1 hA2 s (by rw [hA.nb]; exact ⟨Nat.zero_le _, h1, h2, h3⟩), interch_permL]
  · exact gop_out hA1 hA2 s (by rw [hA.nb]; rintro ⟨-, h⟩; exact hn h)

theorem colT_eff (hA : A.Al b) (rg fwd : Bool) (m : Nat) (s : Store (M × Nat × Nat) α) :
    (∀ r c, m * b ≤ r → r < m * b + A.d.mview m → c < A.d.n →
      A.el ((colT rg E fwd A P m).run s) r c =
        A.el s r (permL (swpOrd fwd 1 A.d.n) (pivAt E P 0 A.d.n s) c)) ∧
    (∀ r c, ¬ (m * b ≤ r ∧ r < m * b + A.d.mview m ∧ c < A.d.n) →
      A.el ((colT rg E fwd A P m).run s) r c = A.el s r c) ∧
    (∀ x, x.1 ≠ A.id → (colT rg E fwd A P m).run s x = s x) := by
  have hA1 : 0 < A.d.mb := by rw [hA.mb]; exact hA.pos
  have hA2 : 0 < A.d.nb := by rw [hA.nb]; exact hA.pos
  unfold colT swpCols
  refine ⟨fun r c h1 h2 h3 => ?_, fun r c hn => ?_, fun x hx => gop_ne s hx⟩
  · rw [gop_in hA1 hA2 s (by rw [hA.mb]; exact ⟨h1, h2, h3⟩), interch_permL]
  · exact gop_out hA1 hA2 s (by rw [hA.mb]; exact hn)

/-- Order of the interchanges as a permutation. -/
def swpPerm (fwd : Bool) (K : Nat) (p : Nat → Nat) : Equiv.Perm Nat := permL (swpOrd fwd 1 K) p

theorem swpPerm_inv (fwd : Bool) (K : Nat) (p : Nat → Nat) : swpPerm (!fwd) K p = (swpPerm fwd K p)⁻¹ := by
  unfold swpPerm swpOrd
  cases fwd
  · simp [permL_reverse]
  · simp [permL_reverse]

theorem swpPerm_fwd (K : Nat) (p : Nat → Nat) : swpPerm true K p = perm p 0 K := by
  unfold swpPerm swpOrd
  simp [permL_range']

theorem swpPerm_congr {fwd : Bool} {K : Nat} {p q : Nat → Nat} (h : ∀ i, i < K → p i = q i) :
    swpPerm fwd K p = swpPerm fwd K q :=
  permL_congr fun i hi => h i (mem_swpOrd.mp hi).2

theorem swpPerm_lt {fwd : Bool} {K : Nat} {p : Nat → Nat} (h : ∀ i, i < K → p i < K) {r : Nat} (hr : r < K) :
    swpPerm fwd K p r < K :=
  (permL_mem (lo := 0) (fun i hi => ⟨Nat.zero_le _, (mem_swpOrd.mp hi).2⟩)
    (fun i hi => ⟨Nat.zero_le _, h i (mem_swpOrd.mp hi).2⟩) ⟨Nat.zero_le _, hr⟩).2

/-- The pivots are row numbers of a matrix with `K` rows. -/
def PvIn (E : IntCode α) (P : TMat M) (K : Nat) (s : Store (M × Nat × Nat) α) : Prop :=
  ∀ i, i < K → 1 ≤ E.dec (P.el s i 0) ∧ E.dec (P.el s i 0) ≤ K

theorem PvIn.pivAt {K : Nat} {s : Store (M × Nat × Nat) α} (h : PvIn E P K s) {i : Nat} (hi : i < K) :
    pivAt E P 0 K s i = pv E P s i := by
  have := h i hi
  rw [pivAt_of (by omega)]; rfl

theorem pzgeswp_rows_eff (hA : A.Al b) (hne : A.id ≠ P.id) (rg fwd : Bool) (s : Store (M × Nat × Nat) α)
    (hp : PvIn E P A.d.m s) :
    let s' := texec (pzgeswp rg E true fwd A P) s
    (∀ r c, r < A.d.m → c < A.d.n → A.el s' r c = A.el s (swpPerm fwd A.d.m (pv E P s) r) c) ∧
    (∀ x, x.1 ≠ A.id → s' x = s x) := by
  have hb := hA.pos
  suffices H : ∀ K, K ≤ A.d.nt →
      (∀ r c, r < A.d.m → c < A.d.n → A.el (texec ((List.range K).map (rowT rg E fwd A P)) s) r c =
        if c < K * b then A.el s (swpPerm fwd A.d.m (pv E P s) r) c else A.el s r c) ∧
      (∀ x, x.1 ≠ A.id → texec ((List.range K).map (rowT rg E fwd A P)) s x = s x) by
    obtain ⟨h1, h2⟩ := H _ (le_refl _)
    intro s'
    have hs' : s' = texec ((List.range A.d.nt).map (rowT rg E fwd A P)) s := by
      show texec (pzgeswp rg E true fwd A P) s = _
      rw [pzgeswp_rows, texec_hub (nops_rowPre A) (nops_rowPost A)]
    rw [hs']
    refine ⟨fun r c hr hc => ?_, h2⟩
    rw [h1 r c hr hc, if_pos]
    have := hA.col_nt hc
    calc c < (c / b + 1) * b := lt_succ_div_mul hb c
      _ ≤ _ := Nat.mul_le_mul_right _ this
  intro K
  induction K with
  | zero => intro _; exact ⟨fun r c _ _ => by rw [if_neg (by omega)]; rfl, fun _ _ => rfl⟩
  | succ K ih =>
    intro hK
    obtain ⟨i1, i2⟩ := ih (by omega)
    rw [List.range_succ, List.map_append, List.map_cons, List.map_nil]
    simp only [texec_append, texec_cons, texec_nil]
    set s1 := texec ((List.range K).map (rowT rg E fwd A P)) s with hs1
    obtain ⟨w1, w2, w3⟩ := rowT_eff (E := E) (P := P) hA rg fwd K s1
    have hpe : permL (swpOrd fwd 1 A.d.m) (pivAt E P 0 A.d.m s1) = swpPerm fwd A.d.m (pv E P s) := by
      refine permL_congr fun i hi => ?_
      have hi' := (mem_swpOrd.mp hi).2
      rw [pivAt_congr (s' := s), hp.pivAt hi']
      unfold TMat.el; rw [i2 _ hne.symm]
    rw [hpe] at w1
    have hnv := hA.nview hK
    unfold tdim at hnv
    have e1 : (K + 1) * b = K * b + b := by ring
    refine ⟨fun r c hr hc => ?_, fun x hx => ?_⟩
    · by_cases h1 : K * b ≤ c ∧ c < K * b + A.d.nview K
      · refine (w1 r c hr h1.1 h1.2).trans ?_
        have hr' : swpPerm fwd A.d.m (pv E P s) r < A.d.m := swpPerm_lt (fun i hi => by
          have := hp i hi; unfold pv; omega) hr
        rw [i1 _ _ hr' hc, if_neg (by omega), if_pos (by omega)]
      · refine (w2 r c (by tauto)).trans ?_
        rw [i1 _ _ hr hc]
        by_cases h2 : c < K * b
        · rw [if_pos h2, if_pos (by omega)]
        · rw [if_neg h2, if_neg (by omega)]
    · exact (w3 x hx).trans (i2 x hx)

theorem pzgeswp_cols_eff (hA : A.Al b) (hne : A.id ≠ P.id) (rg fwd : Bool) (s : Store (M × Nat × Nat) α)
    (hp : PvIn E P A.d.n s) :
    let s' := texec (pzgeswp rg E false fwd A P) s
    (∀ r c, r < A.d.m → c < A.d.n → A.el s' r c = A.el s r (swpPerm fwd A.d.n (pv E P s) c)) ∧
    (∀ x, x.1 ≠ A.id → s' x = s x) := by
  have hb := hA.pos
  suffices H : ∀ K, K ≤ A.d.mt →
      (∀ r c, r < A.d.m → c < A.d.n → A.el (texec ((List.range K).map (colT rg E fwd A P)) s) r c =
        if r < K * b then A.el s r (swpPerm fwd A.d.n (pv E P s) c) else A.el s r c) ∧
      (∀ x, x.1 ≠ A.id → texec ((List.range K).map (colT rg E fwd A P)) s x = s x) by
    obtain ⟨h1, h2⟩ := H _ (le_refl _)
    intro s'
    have hs' : s' = texec ((List.range A.d.mt).map (colT rg E fwd A P)) s := by
      show texec (pzgeswp rg E false fwd A P) s = _
      rw [pzgeswp_cols, texec_hub (nops_colPre A) (nops_colPost A)]
    rw [hs']
    refine ⟨fun r c hr hc => ?_, h2⟩
    rw [h1 r c hr hc, if_pos]
    have := hA.row_mt hr
    calc r < (r / b + 1) * b := lt_succ_div_mul hb r
      _ ≤ _ := Nat.mul_le_mul_right _ this
  intro K
  induction K with
  | zero => intro _; exact ⟨fun r c _ _ => by rw [if_neg (by omega)]; rfl, fun _ _ => rfl⟩
  | succ K ih =>
    intro hK
    obtain ⟨i1, i2⟩ := ih (by omega)
    rw [List.range_succ, List.map_append, List.map_cons, List.map_nil]
    simp only [texec_append, texec_cons, texec_nil]
    set s1 := texec ((List.range K).map (colT rg E fwd A P)) s with hs1
    obtain ⟨w1, w2, w3⟩ := colT_eff (E := E) (P := P) hA rg fwd K s1
    have hpe : permL (swpOrd fwd 1 A.d.n) (pivAt E P 0 A.d.n s1) = swpPerm fwd A.d.n (pv E P s) := by
      refine permL_congr fun i hi => ?_
      have hi' := (mem_swpOrd.mp hi).2
      rw [pivAt_congr (s' := s), hp.pivAt hi']
      unfold TMat.el; rw [i2 _ hne.symm]
    rw [hpe] at w1
    have hnv := hA.mview hK
    unfold tdim at hnv
    have e1 : (K + 1) * b = K * b + b := by ring
    refine ⟨fun r c hr hc => ?_, fun x hx => ?_⟩
    · by_cases h1 : K * b ≤ r ∧ r < K * b + A.d.mview K
      · refine (w1 r c h1.1 h1.2 hc).trans ?_
        have hc' : swpPerm fwd A.d.n (pv E P s) c < A.d.n := swpPerm_lt (fun i hi => by
          have := hp i hi; unfold pv; omega) hc
        rw [i1 _ _ hr hc', if_neg (by omega), if_pos (by omega)]
      · refine (w2 r c (by tauto)).trans ?_
        rw [i1 _ _ hr hc]
        by_cases h2 : r < K * b
        · rw [if_pos h2, if_pos (by omega)]
        · rw [if_neg h2, if_neg (by omega)]
    · exact (w3 x hx).trans (i2 x hx)

/-! ### Footprints and order -/

/-- Memory of an interchange with `K` pivots. -/
structure SwpFit (env : M → MatEnv) (b : Nat) (A P : TMat M) (K : Nat) : Prop where
  fa : Fits env b A
  fp : Fits env b P
  ne : A.id ≠ P.id
  Pn : P.d.n = 1
  Pm : K ≤ P.d.m

variable {env : M → MatEnv} {rg fwd : Bool}

theorem pzgeswp_writes {rowwise : Bool} :
    Writes (fun x => x.1 = A.id) (pzgeswp rg E rowwise fwd A P) := by
  intro t ht a i j hw
  cases rowwise
  · rw [pzgeswp_cols, mem_hub] at ht
    obtain ⟨m, _, h | rfl | h⟩ := ht
    · obtain ⟨d, rfl⟩ := nops_colPre A m t h; exact hw.elim
    · exact hw.1
    · obtain ⟨d, rfl⟩ := nops_colPost A m t h; exact hw.elim
  · rw [pzgeswp_rows, mem_hub] at ht
    obtain ⟨m, _, h | rfl | h⟩ := ht
    · obtain ⟨d, rfl⟩ := nops_rowPre A m t h; exact hw.elim
    · exact hw.1
    · obtain ⟨d, rfl⟩ := nops_rowPost A m t h; exact hw.elim

theorem pzgeswp_rows_local (hA : A.Al b) (hP : P.Al b) : ∀ t ∈ pzgeswp rg E true fwd A P, t.Local := by
  intro t ht
  rw [pzgeswp_rows, mem_hub] at ht
  obtain ⟨m, _, h | rfl | h⟩ := ht
  · obtain ⟨d, rfl⟩ := nops_rowPre A m t h; exact nopT_local _
  · exact swpRows_local hA hP (Nat.zero_le _) (le_refl _)
  · obtain ⟨d, rfl⟩ := nops_rowPost A m t h; exact nopT_local _

theorem pzgeswp_cols_local (hA : A.Al b) (hP : P.Al b) : ∀ t ∈ pzgeswp rg E false fwd A P, t.Local := by
  intro t ht
  rw [pzgeswp_cols, mem_hub] at ht
  obtain ⟨m, _, h | rfl | h⟩ := ht
  · obtain ⟨d, rfl⟩ := nops_colPre A m t h; exact nopT_local _
  · exact swpCols_local hA hP (le_refl _)
  · obtain ⟨d, rfl⟩ := nops_colPost A m t h; exact nopT_local _

theorem piv_inside {K : Nat} (h : SwpFit env b A P K) {k1 : Nat} {x : M × Nat × Nat} {i j : Nat}
    (hw : P.reg (fun i j => i ∈ swpOrd fwd k1 K ∧ j = 0) x i j) : evalid env x i j := by
  refine reg_inside (R := fun i j => i ∈ swpOrd fwd k1 K ∧ j = 0) h.fp ?_ hw
  intro r c hR
  rw [mem_swpOrd] at hR
  have := h.Pn
  have := h.Pm
  omega

theorem pzgeswp_rows_inside (h : SwpFit env b A P A.d.m) :
    ∀ t ∈ pzgeswp rg E true fwd A P, t.Inside (evalid env) := by
  intro t ht
  rw [pzgeswp_rows, mem_hub] at ht
  obtain ⟨n, hn, hh | rfl | hh⟩ := ht
  · obtain ⟨d, rfl⟩ := nops_rowPre A n t hh; exact nopT_inside _
  · rw [List.mem_range] at hn
    rintro x i j (hw | hw)
    · exact piv_inside h hw
    · refine reg_inside (R := fun r c => 0 ≤ r ∧ r < A.d.m ∧ n * A.d.nb ≤ c ∧ c < n * A.d.nb + A.d.nview n) h.fa
        (fun r c hR => ⟨hR.2.1, ?_⟩) hw
      have := h.fa.al.nview hn
      have := h.fa.al.lt_nt.mp hn
      have := h.fa.al.nb
      unfold tdim at *
      rw [h.fa.al.nb] at hR
      omega
  · obtain ⟨d, rfl⟩ := nops_rowPost A n t hh; exact nopT_inside _

theorem pzgeswp_cols_inside (h : SwpFit env b A P A.d.n) :
    ∀ t ∈ pzgeswp rg E false fwd A P, t.Inside (evalid env) := by
  intro t ht
  rw [pzgeswp_cols, mem_hub] at ht
  obtain ⟨n, hn, hh | rfl | hh⟩ := ht
  · obtain ⟨d, rfl⟩ := nops_colPre A n t hh; exact nopT_inside _
  · rw [List.mem_range] at hn
    rintro x i j (hw | hw)
    · exact piv_inside h hw
    · refine reg_inside (R := fun r c => n * A.d.mb ≤ r ∧ r < n * A.d.mb + A.d.mview n ∧ c < A.d.n) h.fa
        (fun r c hR => ⟨?_, hR.2.2⟩) hw
      have := h.fa.al.mview hn
      have := h.fa.al.lt_mt.mp hn
      unfold tdim at *
      rw [h.fa.al.mb] at hR
      omega
  · obtain ⟨d, rfl⟩ := nops_colPost A n t hh; exact nopT_inside _

theorem rowT_tile (hA : A.Al b) {n : Nat} (hn : n < A.d.nt) {x : M × Nat × Nat} {i j : Nat}
    (hw : (rowT rg E fwd A P n).wr x i j) : ∃ m, m < A.d.mt ∧ x = A.at' m n := by
  obtain ⟨r, c, hR, rfl⟩ := reg_tile
    (R := fun r c => 0 ≤ r ∧ r < A.d.m ∧ n * A.d.nb ≤ c ∧ c < n * A.d.nb + A.d.nview n) hA hw
  have := hA.nview hn
  unfold tdim at this
  rw [hA.nb] at hR
  rw [div_tile hR.2.2.1 (by omega)]
  exact ⟨r / b, hA.row_mt hR.2.1, rfl⟩

theorem colT_tile (hA : A.Al b) {m : Nat} (hm : m < A.d.mt) {x : M × Nat × Nat} {i j : Nat}
    (hw : (colT rg E fwd A P m).wr x i j) : ∃ n, n < A.d.nt ∧ x = A.at' m n := by
  obtain ⟨r, c, hR, rfl⟩ := reg_tile
    (R := fun r c => m * A.d.mb ≤ r ∧ r < m * A.d.mb + A.d.mview m ∧ c < A.d.n) hA hw
  have := hA.mview hm
  unfold tdim at this
  rw [hA.mb] at hR
  rw [div_tile hR.1 (by omega)]
  exact ⟨c / b, hA.col_nt hR.2.2, rfl⟩

/-- Under region matching the rowwise tasks declare what they touch. -/
theorem pzgeswp_rows_good (h : SwpFit env b A P A.d.m) (hPm : P.d.m = A.d.m) :
    Good (evalid env) (pzgeswp true E true fwd A P) := by
  refine ⟨pzgeswp_rows_local h.fa.al h.fp.al, ?_, pzgeswp_rows_inside h⟩
  intro t ht
  rw [pzgeswp_rows, mem_hub] at ht
  obtain ⟨n, hn, hh | rfl | hh⟩ := ht
  · obtain ⟨d, rfl⟩ := nops_rowPre A n t hh; exact nopT_declared _
  · rw [List.mem_range] at hn
    constructor
    · intro x i j hr
      obtain ⟨r, c, hR, rfl⟩ := reg_tile (R := fun i j => i ∈ swpOrd fwd 1 A.d.m ∧ j = 0) h.fp.al hr
      refine ⟨false, ?_⟩
      rw [hR.2, Nat.zero_div]
      show _ ∈ _ ++ _ ++ [_]
      rw [List.append_assoc]
      refine List.mem_append_left _ (mem_sec (Nat.zero_le _) (h.fp.al.row_mt ?_))
      rw [hPm]; exact (mem_swpOrd.mp hR.1).2
    · intro x i j hw
      obtain ⟨m, hm, rfl⟩ := rowT_tile h.fa.al hn hw
      show _ ∈ _ ++ _ ++ [_]
      rw [List.append_assoc, List.mem_append, List.mem_append]
      right
      rcases mem_sec' (A := A) (n := n) (w := true) (Nat.zero_le m) hm with hx | hx
      · exact Or.inl hx
      · rw [hx]; simp
  · obtain ⟨d, rfl⟩ := nops_rowPost A n t hh; exact nopT_declared _

theorem sec_head {lo hi n : Nat} {w : Bool} (h : lo < hi) : (A.at' lo n, w) ∈ secCol rg A lo hi n w := by
  cases rg
  · unfold secCol; simp [h]
  · exact mem_sec (le_refl _) h

/-- The rowwise interchanges in a program that does not write the pivots. -/
theorem geswp_cov_rows (hA : A.Al b) (hne : A.id ≠ P.id) {L1 L2 : List (TTask (M × Nat × Nat) α)}
    (hc : TCovered (L1 ++ L2)) (hP : ∀ t ∈ L1 ++ L2, ∀ a i j, t.wr a i j → a.1 ≠ P.id)
    (h2 : ∀ t ∈ L2, t.Declared)
    (h1 : ∀ (i : Nat) t, L1[i]? = some t → ∀ m n k l, m < A.d.mt → n < A.d.nt →
      t.rd (A.at' m n) k l ∨ t.wr (A.at' m n) k l →
      ∃ (j : Nat) (t' : TTask (M × Nat × Nat) α) (m' : Nat), L1[j]? = some t' ∧ m' < A.d.mt ∧
        (A.at' m' n, true) ∈ t'.deps ∧ Relation.ReflTransGen (TEdge L1) i j) :
    TCovered (L1 ++ pzgeswp rg E true fwd A P ++ L2) := by
  rw [pzgeswp_rows]
  refine hub_covered (own := fun n a => ∃ m, m < A.d.mt ∧ a = A.at' m n) (ro := fun a => a.1 = P.id)
    { npre := nops_rowPre A, npost := nops_rowPost A, nd := List.nodup_range, disj := ?_, wr := ?_, rd := ?_,
      oro := ?_, nro := hP, ent := ?_, ext := ?_, before := ?_, after := ?_ } hc
  · rintro n _ n' _ a ⟨m, _, rfl⟩ ⟨m', _, e⟩
    exact (TMat.at'_inj.mp e).2
  · intro n hn a i j hw
    exact rowT_tile hA (List.mem_range.mp hn) hw
  · intro n hn a i j hr; exact Or.inr hr.1
  · rintro n _ a ⟨m, _, rfl⟩ e; exact hne e
  · rintro n hn a ⟨m, hm, rfl⟩
    have hT : ∀ x, x ∈ secCol rg A 0 (A.d.mt - 1) n true ++ [(A.at' (A.d.mt - 1) n, true)] →
        x ∈ (rowT rg E fwd A P n).deps := fun x hx => by
      show x ∈ _ ++ _ ++ [_]
      rw [List.append_assoc]; exact List.mem_append_right _ hx
    by_cases hl : m = A.d.mt - 1
    · left; apply hT; simp [hl]
    · by_cases h0 : m = 0
      · left; apply hT; rw [h0]; exact List.mem_append_left _ (sec_head (by omega))
      · right
        refine ⟨A.at' 0 n, hT _ (List.mem_append_left _ (sec_head (by omega))), _,
          List.mem_map.mpr ⟨m, mem_span.mpr ⟨by omega, by omega⟩, rfl⟩, ⟨false, ?_⟩, ?_⟩ <;> simp [nopT]
  · rintro n hn a ⟨m, hm, rfl⟩
    have hT : ∀ x, x ∈ secCol rg A 0 (A.d.mt - 1) n true ++ [(A.at' (A.d.mt - 1) n, true)] →
        x ∈ (rowT rg E fwd A P n).deps := fun x hx => by
      show x ∈ _ ++ _ ++ [_]
      rw [List.append_assoc]; exact List.mem_append_right _ hx
    by_cases hl : m = A.d.mt - 1
    · left; apply hT; simp [hl]
    · by_cases h0 : m = 0
      · left; apply hT; rw [h0]; exact List.mem_append_left _ (sec_head (by omega))
      · right
        refine ⟨A.at' 0 n, hT _ (List.mem_append_left _ (sec_head (by omega))), _,
          List.mem_map.mpr ⟨m, mem_span.mpr ⟨by omega, by omega⟩, rfl⟩, ⟨false, ?_⟩, ?_⟩ <;> simp [nopT]
  · rintro i t ht n hn a k l ⟨m, hm, rfl⟩ hrw
    obtain ⟨j, t', m', e1, e2, e3, e4⟩ := h1 i t ht m n k l hm (List.mem_range.mp hn) hrw
    exact ⟨j, t', _, e1, ⟨m', e2, rfl⟩, e3, e4⟩
  · rintro t ht n hn a k l - (hr | hw)
    · exact (h2 t ht).1 _ _ _ hr
    · exact ⟨true, (h2 t ht).2 _ _ _ hw⟩

/-- The columnwise interchanges in a program that does not write the pivots. -/
theorem geswp_cov_cols (hA : A.Al b) (hne : A.id ≠ P.id) {L1 L2 : List (TTask (M × Nat × Nat) α)}
    (hc : TCovered (L1 ++ L2)) (hP : ∀ t ∈ L1 ++ L2, ∀ a i j, t.wr a i j → a.1 ≠ P.id)
    (h2 : ∀ t ∈ L2, t.Declared)
    (h1 : ∀ (i : Nat) t, L1[i]? = some t → ∀ m n k l, m < A.d.mt → n < A.d.nt →
      t.rd (A.at' m n) k l ∨ t.wr (A.at' m n) k l →
      ∃ (j : Nat) (t' : TTask (M × Nat × Nat) α) (n' : Nat), L1[j]? = some t' ∧ n' < A.d.nt ∧
        (A.at' m n', true) ∈ t'.deps ∧ Relation.ReflTransGen (TEdge L1) i j) :
    TCovered (L1 ++ pzgeswp rg E false fwd A P ++ L2) := by
  rw [pzgeswp_cols]
  refine hub_covered (own := fun m a => ∃ n, n < A.d.nt ∧ a = A.at' m n) (ro := fun a => a.1 = P.id)
    { npre := nops_colPre A, npost := nops_colPost A, nd := List.nodup_range, disj := ?_, wr := ?_, rd := ?_,
      oro := ?_, nro := hP, ent := ?_, ext := ?_, before := ?_, after := ?_ } hc
  · rintro n _ n' _ a ⟨m, _, rfl⟩ ⟨m', _, e⟩
    exact (TMat.at'_inj.mp e).1
  · intro n hn a i j hw
    exact colT_tile hA (List.mem_range.mp hn) hw
  · intro n hn a i j hr; exact Or.inr hr.1
  · rintro n _ a ⟨m, _, rfl⟩ e; exact hne e
  · rintro m hm a ⟨n, hn, rfl⟩
    have hT : ∀ x, x = (A.at' m 0, true) ∨ x = (A.at' m (A.d.nt - 1), true) →
        x ∈ (colT rg E fwd A P m).deps := fun x hx => by
      show x ∈ _ ++ [_, _]
      refine List.mem_append_right _ ?_
      rcases hx with rfl | rfl <;> simp
    by_cases hl : n = A.d.nt - 1
    · left; apply hT; simp [hl]
    · by_cases h0 : n = 0
      · left; apply hT; simp [h0]
      · right
        refine ⟨A.at' m 0, hT _ (Or.inl rfl), _,
          List.mem_map.mpr ⟨n, mem_span.mpr ⟨by omega, by omega⟩, rfl⟩, ⟨false, ?_⟩, ?_⟩ <;> simp [nopT]
  · rintro m hm a ⟨n, hn, rfl⟩
    have hT : ∀ x, x = (A.at' m 0, true) ∨ x = (A.at' m (A.d.nt - 1), true) →
        x ∈ (colT rg E fwd A P m).deps := fun x hx => by
      show x ∈ _ ++ [_, _]
      refine List.mem_append_right _ ?_
      rcases hx with rfl | rfl <;> simp
    by_cases hl : n = A.d.nt - 1
    · left; apply hT; simp [hl]
    · by_cases h0 : n = 0
      · left; apply hT; simp [h0]
      · right
        refine ⟨A.at' m 0, hT _ (Or.inl rfl), _,
          List.mem_map.mpr ⟨n, mem_span.mpr ⟨by omega, by omega⟩, rfl⟩, ⟨false, ?_⟩, ?_⟩ <;> simp [nopT]
  · rintro i t ht m hm a k l ⟨n, hn, rfl⟩ hrw
    obtain ⟨j, t', n', e1, e2, e3, e4⟩ := h1 i t ht m n k l (List.mem_range.mp hm) hn hrw
    exact ⟨j, t', _, e1, ⟨n', e2, rfl⟩, e3, e4⟩
  · rintro t ht n hn a k l - (hr | hw)
    · exact (h2 t ht).1 _ _ _ hr
    · exact ⟨true, (h2 t ht).2 _ _ _ hw⟩

end

end Verif.Tile

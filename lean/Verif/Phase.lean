/-
Programs made of several phases: everything in an earlier phase is complete before a later phase
starts (end of a parallel region, `taskwait`).
-/
import Verif.GExec
import Verif.Comb

namespace Verif.Tile

open Verif.Sched

universe u v w

section
variable {M : Type u} {α : Type v}

/-- The task placed in phase `p`. -/
def phT (p : Nat) (t : TTask M α) : TTask M α := { t with phase := p }

theorem phT_run (p : Nat) (t : TTask M α) (s : Store M α) : (phT p t).run s = t.run s := rfl
theorem phT_local {p : Nat} {t : TTask M α} (h : t.Local) : (phT p t).Local := h
theorem phT_inside {p : Nat} {t : TTask M α} {valid : Foot M} (h : t.Inside valid) : (phT p t).Inside valid := h
theorem phT_declared {p : Nat} {t : TTask M α} (h : t.Declared) : (phT p t).Declared := h

theorem texec_phT (p : Nat) (L : List (TTask M α)) (s : Store M α) : texec (L.map (phT p)) s = texec L s := by
  induction L generalizing s with
  | nil => rfl
  | cons t L ih => rw [List.map_cons, texec_cons, texec_cons, ih, phT_run]

theorem writes_phT {W : M → Prop} {p : Nat} {L : List (TTask M α)} (h : Writes W L) : Writes W (L.map (phT p)) := by
  intro t ht x i j hw
  obtain ⟨t', ht', rfl⟩ := List.mem_map.mp ht
  exact h t' ht' x i j hw

theorem tdep_of_declared {t t' : TTask M α} (ht : t.Declared) (ht' : t'.Declared) (hc : TConflict t t') :
    TDepOn t t' := by
  obtain ⟨a, k, l, hc⟩ := hc
  refine Or.inr ?_
  rcases hc with ⟨h1, h2 | h2⟩ | ⟨h1, h2⟩
  · obtain ⟨b, hb⟩ := ht'.1 _ _ _ h2
    exact ⟨_, ht.2 _ _ _ h1, _, hb, rfl, Or.inl rfl⟩
  · exact ⟨_, ht.2 _ _ _ h1, _, ht'.2 _ _ _ h2, rfl, Or.inl rfl⟩
  · obtain ⟨b, hb⟩ := ht.1 _ _ _ h1
    exact ⟨_, hb, _, ht'.2 _ _ _ h2, rfl, Or.inr rfl⟩

/-- Two tasks of which the first is in an earlier phase, or that both announce what they touch. -/
def PhOK (t t' : TTask M α) : Prop := t.phase < t'.phase ∨ (t.Declared ∧ t'.Declared)

theorem tcovered_phOK {P : List (TTask M α)} (h : P.Pairwise PhOK) : TCovered P := by
  intro i j t t' hij hi hj hc
  refine Relation.TransGen.single ⟨hij, t, t', hi, hj, ?_⟩
  obtain ⟨hi', rfl⟩ := List.getElem?_eq_some_iff.mp hi
  obtain ⟨hj', rfl⟩ := List.getElem?_eq_some_iff.mp hj
  rcases List.pairwise_iff_getElem.mp h i j hi' hj' hij with h | h
  · exact Or.inl h
  · exact tdep_of_declared h.1 h.2 hc

theorem phOK_declared {P : List (TTask M α)} (h : ∀ t ∈ P, t.Declared) : P.Pairwise PhOK :=
  List.pairwise_of_forall_mem_list fun t ht t' ht' => Or.inr ⟨h t ht, h t' ht'⟩

/-- Two parts in different phases. -/
theorem TCovered.phases {P Q : List (TTask M α)} (hP : TCovered P) (hQ : TCovered Q)
    (h : ∀ t ∈ P, ∀ t' ∈ Q, t.phase < t'.phase) : TCovered (P ++ Q) := by
  intro i j t t' hij hi hj hc
  rcases Nat.lt_or_ge j P.length with hj1 | hj1
  · rw [List.getElem?_append_left hj1] at hj
    rw [List.getElem?_append_left (by omega)] at hi
    exact ttrans_append_left _ (hP i j t t' hij hi hj hc)
  · rcases Nat.lt_or_ge i P.length with hi1 | hi1
    · have hi' := hi
      have hj' := hj
      rw [List.getElem?_append_left hi1] at hi'
      rw [List.getElem?_append_right hj1] at hj'
      exact Relation.TransGen.single ⟨hij, t, t', hi, hj,
        Or.inl (h t (List.mem_of_getElem? hi') t' (List.mem_of_getElem? hj'))⟩
    · rw [List.getElem?_append_right hj1] at hj
      rw [List.getElem?_append_right hi1] at hi
      have := ttrans_append_right P (hQ (i - P.length) (j - P.length) t t' (by omega) hi hj hc)
      rwa [Nat.add_sub_cancel' hi1, Nat.add_sub_cancel' hj1] at this

/-- A covered program that does not use phases, placed in phase `p`. -/
theorem TCovered.phT {P : List (TTask M α)} (h : TCovered P) (h0 : ∀ t ∈ P, t.phase = 0) (p : Nat) :
    TCovered (P.map (phT p)) := by
  have hstep : ∀ i j, TEdge P i j → TEdge (P.map (Tile.phT p)) i j := by
    rintro i j ⟨hij, t, t', hi, hj, hd⟩
    refine ⟨hij, Tile.phT p t, Tile.phT p t', by rw [List.getElem?_map, hi]; rfl, by rw [List.getElem?_map, hj]; rfl, ?_⟩
    rcases hd with hd | hd
    · rw [h0 t (List.mem_of_getElem? hi), h0 t' (List.mem_of_getElem? hj)] at hd
      exact absurd hd (Nat.lt_irrefl _)
    · exact Or.inr hd
  intro i j t t' hij hi hj hc
  rw [List.getElem?_map, Option.map_eq_some_iff] at hi hj
  obtain ⟨x, hx, rfl⟩ := hi
  obtain ⟨y, hy, rfl⟩ := hj
  exact Relation.TransGen.mono hstep _ _ (h i j x y hij hx hy hc)

/-- A guarded program placed in phase `p`. -/
def phG (p : Nat) (L : List (GTTask M α)) : List (GTTask M α) := L.map fun g => { g with task := phT p g.task }

theorem tasks_phG (p : Nat) (L : List (GTTask M α)) : tasks (phG p L) = (tasks L).map (phT p) := by
  simp [tasks, phG, List.map_map, Function.comp_def]

theorem phG_codeOK {p : Nat} {L : List (GTTask M α)} (h : CodeOK L) : CodeOK (phG p L) := by
  obtain ⟨h1, h2⟩ := h
  constructor
  · intro t ht
    obtain ⟨g, hg, rfl⟩ := List.mem_map.mp ht
    exact h1 g hg
  · intro t ht
    obtain ⟨g, hg, rfl⟩ := List.mem_map.mp ht
    exact h2 g hg

theorem phG_chain {p : Nat} {L : List (GTTask M α)} (h : FChain L) (h0 : ∀ t ∈ tasks L, t.phase = 0) :
    FChain (phG p L) := by
  have hstep : ∀ i j, TEdge (tasks L) i j → TEdge (tasks (phG p L)) i j := by
    rintro i j ⟨hij, t, t', hi, hj, hd⟩
    rw [tasks_phG]
    refine ⟨hij, Tile.phT p t, Tile.phT p t', by rw [List.getElem?_map, hi]; rfl, by rw [List.getElem?_map, hj]; rfl, ?_⟩
    rcases hd with hd | hd
    · rw [h0 t (List.mem_of_getElem? hi), h0 t' (List.mem_of_getElem? hj)] at hd
      exact absurd hd (Nat.lt_irrefl _)
    · exact Or.inr hd
  intro i j t t' hij hi hj hs hs'
  rw [phG, List.getElem?_map, Option.map_eq_some_iff] at hi hj
  obtain ⟨x, hx, rfl⟩ := hi
  obtain ⟨y, hy, rfl⟩ := hj
  exact Relation.TransGen.mono hstep _ _ (h i j x y hij hx hy hs hs')

/-- Tasks in the phases `lo ≤ … ≤ hi`; those in the first and in the last phase announce what they touch. -/
structure PhSeq (lo hi : Nat) (L : List (TTask M α)) : Prop where
  le : lo ≤ hi
  ord : L.Pairwise PhOK
  mem : ∀ t ∈ L, lo ≤ t.phase ∧ t.phase ≤ hi ∧ (t.phase = lo → t.Declared) ∧ (t.phase = hi → t.Declared)

theorem PhSeq.append {lo mid hi : Nat} {L L' : List (TTask M α)} (h : PhSeq lo mid L) (h' : PhSeq mid hi L') :
    PhSeq lo hi (L ++ L') := by
  have h1 := h.le
  have h2 := h'.le
  refine ⟨h1.trans h2, List.pairwise_append.mpr ⟨h.ord, h'.ord, fun t ht t' ht' => ?_⟩, fun t ht => ?_⟩
  · obtain ⟨-, a1, -, a2⟩ := h.mem t ht
    obtain ⟨b1, -, b2, -⟩ := h'.mem t' ht'
    by_cases he : t.phase < t'.phase
    · exact Or.inl he
    · exact Or.inr ⟨a2 (by omega), b2 (by omega)⟩
  · rcases List.mem_append.mp ht with ht | ht
    · obtain ⟨a0, a1, a2, a3⟩ := h.mem t ht
      exact ⟨a0, by omega, a2, fun he => a3 (by omega)⟩
    · obtain ⟨a0, a1, a2, a3⟩ := h'.mem t ht
      exact ⟨by omega, a1, fun he => a2 (by omega), a3⟩

theorem PhSeq.nil {lo hi : Nat} (h : lo ≤ hi) : PhSeq lo hi ([] : List (TTask M α)) :=
  ⟨h, List.Pairwise.nil, fun _ ht => by simp at ht⟩

theorem PhSeq.const {p : Nat} {L : List (TTask M α)} (h : ∀ t ∈ L, t.Declared ∧ t.phase = p) : PhSeq p p L :=
  ⟨le_rfl, phOK_declared fun t ht => (h t ht).1,
    fun t ht => ⟨by rw [(h t ht).2], by rw [(h t ht).2], fun _ => (h t ht).1, fun _ => (h t ht).1⟩⟩

theorem PhSeq.range {f : Nat → Nat} {g : Nat → List (TTask M α)} {n : Nat} (h : ∀ k, k < n → PhSeq (f k) (f (k + 1)) (g k)) :
    PhSeq (f 0) (f n) ((List.range n).flatMap g) := by
  induction n with
  | zero => exact PhSeq.nil le_rfl
  | succ n ih =>
    rw [List.range_succ, List.flatMap_append, List.flatMap_singleton]
    exact (ih fun k hk => h k (by omega)).append (h n (by omega))

theorem PhSeq.cov {lo hi : Nat} {L : List (TTask M α)} (h : PhSeq lo hi L) : TCovered L := tcovered_phOK h.ord

theorem tcode_phG (p : Nat) (L : List (GTTask M α)) (s : Store M α) (i : Nat) : tcode (phG p L) s i = tcode L s i := by
  unfold tcode
  rw [tasks_phG, ← List.map_take, texec_phT, phG, List.getElem?_map]
  cases L[i]? <;> rfl

theorem good_phT {valid : Foot M} {p : Nat} {L : List (TTask M α)} (h : Good valid L) : Good valid (L.map (phT p)) :=
  ⟨fun t ht => by obtain ⟨x, hx, rfl⟩ := List.mem_map.mp ht; exact h.loc x hx,
   fun t ht => by obtain ⟨x, hx, rfl⟩ := List.mem_map.mp ht; exact h.decl x hx,
   fun t ht => by obtain ⟨x, hx, rfl⟩ := List.mem_map.mp ht; exact h.ins x hx⟩

theorem goodC_phT {valid : Foot M} {p : Nat} {L : List (TTask M α)} (h : GoodC valid L) (h0 : ∀ t ∈ L, t.phase = 0) :
    GoodC valid (L.map (phT p)) :=
  ⟨fun t ht => by obtain ⟨x, hx, rfl⟩ := List.mem_map.mp ht; exact h.loc x hx,
   fun t ht => by obtain ⟨x, hx, rfl⟩ := List.mem_map.mp ht; exact h.ins x hx,
   h.cov.phT h0 p⟩

theorem writesE_phT {W : Foot M} {p : Nat} {L : List (TTask M α)} (h : WritesE W L) : WritesE W (L.map (phT p)) := by
  intro t ht x i j hw
  obtain ⟨t', ht', rfl⟩ := List.mem_map.mp ht
  exact h t' ht' x i j hw

/-! ### Interleaved lists -/

theorem run_comm {t t' : TTask M α} (h : t.Local) (h' : t'.Local) (hc : ¬ TConflict t t') (s : Store M α) :
    t'.run (t.run s) = t.run (t'.run s) := by
  have key : ∀ {t t' : TTask M α}, t'.Local → (∀ a i j, t'.rd a i j ∨ t'.wr a i j → ¬ t.wr a i j) → ∀ a i j, t'.wr a i j →
      t'.run (t.run s) a i j = t.run (t'.run s) a i j := by
    intro t t' h' hn a i j hw
    rw [TTask.run_wr _ _ hw, TTask.run_frame _ _ (hn a i j (Or.inr hw)), TTask.run_wr _ _ hw]
    refine h' _ _ (fun a i j ha => ?_) a i j hw
    rw [TTask.run_frame _ _ (hn a i j ha)]
  have n1 : ∀ a i j, t'.rd a i j ∨ t'.wr a i j → ¬ t.wr a i j := fun a i j ha hw =>
    hc ⟨a, i, j, Or.inl ⟨hw, ha⟩⟩
  have n2 : ∀ a i j, t.rd a i j ∨ t.wr a i j → ¬ t'.wr a i j := by
    rintro a i j (ha | ha) hw
    · exact hc ⟨a, i, j, Or.inr ⟨ha, hw⟩⟩
    · exact hc ⟨a, i, j, Or.inl ⟨ha, Or.inr hw⟩⟩
  funext a i j
  by_cases hw' : t'.wr a i j
  · exact key h' n1 a i j hw'
  · by_cases hw : t.wr a i j
    · exact (key h n2 a i j hw).symm
    · rw [TTask.run_frame _ _ hw', TTask.run_frame _ _ hw, TTask.run_frame _ _ hw, TTask.run_frame _ _ hw']

/-- A loop with two independent statements may be split. -/
theorem texec_unzip {ι : Type w} (l : List ι) (f g : ι → TTask M α)
    (h : l.Pairwise fun i j => ∀ s, (f j).run ((g i).run s) = (g i).run ((f j).run s)) (s : Store M α) :
    texec (l.flatMap fun i => [f i, g i]) s = texec (l.map f ++ l.map g) s := by
  induction l generalizing s with
  | nil => rfl
  | cons i l ih =>
    rw [List.pairwise_cons] at h
    have hm : ∀ (l' : List ι), (∀ j ∈ l', ∀ s, (f j).run ((g i).run s) = (g i).run ((f j).run s)) → ∀ s,
        texec (l'.map f) ((g i).run s) = (g i).run (texec (l'.map f) s) := by
      intro l'
      induction l' with
      | nil => intro _ s; rfl
      | cons j l' ih' =>
        intro hj s
        rw [List.map_cons, texec_cons, texec_cons, hj j List.mem_cons_self, ih' fun x hx => hj x (List.mem_cons_of_mem _ hx)]
    rw [List.flatMap_cons, texec_append, ih h.2, List.map_cons, List.map_cons, List.cons_append, texec_cons, texec_cons,
      texec_cons, texec_nil, texec_append, texec_append, texec_cons, hm l h.1]

end

end Verif.Tile

/-
The bulge chasing over real memory: addresses, and what every execution of the threads computes.
-/
import Verif.BulgeKern
import Verif.Props.Gesdd

namespace Verif.Bulge

open Verif.Sched Verif.Tile Verif.Props

universe v

/-- Addresses of the arrays: `AU`/`AL` in the band array with `lda = 3*nb+1`, and the halves of `VQ`, `VP`, `TAUQ`, `TAUP`, which have
`2*minmn` elements each, `wantz = 0` (compute/pzgbbrd_static.c:44-45, core_blas/core_zgbtype1cb.c:135-136, compute/zgesdd.c:520-562). -/
def chaseLoc (up : Bool) (n nb : Nat) (x : CM) (i j : Nat) : CM × Nat :=
  match x with
  | .a => (.a, bandAddr up nb i j)
  | x => (x, i * n + j)

/-- Elements that have a place of their own. -/
def chaseValid (up : Bool) (n nb : Nat) : Foot CM := fun x i j => match x with
  | .a => i < n ∧ j < n ∧ if up then j ≤ i + 2 * nb ∧ i ≤ j + nb else i ≤ j + 2 * nb ∧ j ≤ i + nb
  | .dep _ _ => False
  | _ => i < 2 ∧ j < n

section
variable {sel : Nat → Nat} {up : Bool} {n nb ac : Nat} {b : Blk}

theorem chase_inj : InjOn (chaseLoc up n nb) (chaseValid up n nb) := by
  have hmul : ∀ {n i j i' j' : Nat}, j < n → j' < n → i * n + j = i' * n + j' → i = i' ∧ j = j' := by
    intro n i j i' j' h h' e
    have h1 : (i * n + j) / n = i := by
      rw [Nat.mul_comm, Nat.mul_add_div (by omega), Nat.div_eq_of_lt h, Nat.add_zero]
    have h2 : (i' * n + j') / n = i' := by
      rw [Nat.mul_comm, Nat.mul_add_div (by omega), Nat.div_eq_of_lt h', Nat.add_zero]
    rw [e, h2] at h1
    subst h1
    exact ⟨rfl, by omega⟩
  have hA : ∀ r c r' c' : Nat, chaseValid up n nb .a r c → chaseValid up n nb .a r' c' → bandAddr up nb r c = bandAddr up nb r' c' →
      r = r' ∧ c = c' := by
    intro r c r' c' h h' e
    obtain ⟨-, -, h⟩ := h
    obtain ⟨-, -, h'⟩ := h'
    unfold bandAddr at e
    have e1 : ∀ r c : Nat, (if up then c ≤ r + 2 * nb ∧ r ≤ c + nb else r ≤ c + 2 * nb ∧ c ≤ r + nb) →
        (if up then 2 * nb else nb) + r + c * (3 * nb + 1) - c = c * (3 * nb + 1) + ((if up then 2 * nb else nb) + r - c) := by
      intro r c h
      have : c ≤ c * (3 * nb + 1) := Nat.le_mul_of_pos_right c (by omega)
      cases up
      · simp only [Bool.false_eq_true, if_false] at h ⊢
        omega
      · simp only [if_true] at h ⊢
        omega
    rw [e1 r c h, e1 r' c' h'] at e
    have := hmul (n := 3 * nb + 1) (i := c) (i' := c') (j := (if up then 2 * nb else nb) + r - c)
      (j' := (if up then 2 * nb else nb) + r' - c') ?_ ?_ e
    · obtain ⟨rfl, h2⟩ := this
      cases up
      · simp only [Bool.false_eq_true, if_false] at h h' h2
        exact ⟨by omega, rfl⟩
      · simp only [if_true] at h h' h2
        exact ⟨by omega, rfl⟩
    · cases up
      · simp only [Bool.false_eq_true, if_false] at h ⊢
        omega
      · simp only [if_true] at h ⊢
        omega
    · cases up
      · simp only [Bool.false_eq_true, if_false] at h' ⊢
        omega
      · simp only [if_true] at h' ⊢
        omega
  intro x i j x' i' j' h h' e
  have ex : x = x' := by
    cases x <;> cases x' <;> first | rfl | exact h.elim | (exact absurd (congrArg Prod.fst e) (by simp [chaseLoc]))
  subst ex
  refine ⟨rfl, ?_⟩
  cases x with
  | a => exact hA i j i' j' h h' (congrArg Prod.snd e)
  | dep => exact h.elim
  | q => exact hmul h.2 h'.2 (congrArg Prod.snd e)
  | p => exact hmul h.2 h'.2 (congrArg Prod.snd e)
  | tq => exact hmul h.2 h'.2 (congrArg Prod.snd e)
  | tp => exact hmul h.2 h'.2 (congrArg Prod.snd e)

/-- All addresses are inside the arrays. -/
theorem chase_bound {x : CM} {i j : Nat} (h : chaseValid up n nb x i j) :
    (chaseLoc up n nb x i j).2 < if x = .a then (3 * nb + 1) * n else 2 * n := by
  have hV : i < 2 ∧ j < n → i * n + j < 2 * n := by
    rintro ⟨h1, h2⟩
    have : i * n ≤ 1 * n := Nat.mul_le_mul_right n (by omega)
    omega
  cases x with
  | a =>
    obtain ⟨h1, h2, h⟩ := h
    rw [if_pos rfl]
    show bandAddr up nb i j < _
    unfold bandAddr
    have h3 : j * (3 * nb + 1) + (3 * nb + 1) ≤ (3 * nb + 1) * n := by
      have := Nat.mul_le_mul_right (3 * nb + 1) (show j + 1 ≤ n by omega)
      rw [Nat.add_mul, Nat.one_mul, Nat.mul_comm n] at this
      exact this
    cases up
    · simp only [Bool.false_eq_true, if_false] at h ⊢
      omega
    · simp only [if_true] at h ⊢
      omega
  | dep => exact h.elim
  | q => exact hV h
  | p => exact hV h
  | tq => exact hV h
  | tp => exact hV h

theorem foot_valid (hn : 2 ≤ n) (hnb : 0 < nb) (hb : IsBlk n nb b) {x : CM} {i j : Nat} (h : foot par up n nb b x i j) :
    chaseValid up n nb x i j := by
  have h1 := bst_pos hb
  have h2 := bed_lt (nb := nb) (b := b) hn
  have h3 : bj2 n nb b < n := by unfold bj2; omega
  have h4 : bj2 n nb b ≤ bed n nb b + nb := min_le_left _ _
  have h5 : bed n nb b ≤ bst nb b + nb - 1 := min_le_left _ _
  have hA : ∀ r c, footA n nb b r c → r < n ∧ c < n ∧ c ≤ r + 2 * nb ∧ r ≤ c + nb := by
    intro r c h
    unfold footA at h
    split at h <;> omega
  have hQ : ∀ h j, footQ par n nb b h j → h < 2 ∧ j < n := by
    intro h j k
    unfold footQ par at k
    omega
  have hP : ∀ h j, footP par n nb b h j → h < 2 ∧ j < n := by
    intro h j k
    unfold footP par at k
    obtain ⟨k1, k2⟩ := k
    split at k2 <;> omega
  cases x with
  | dep => exact h.elim
  | a =>
    cases up
    · obtain ⟨k1, k2, k3, k4⟩ := hA j i h
      exact ⟨k2, k1, k3, k4⟩
    · obtain ⟨k1, k2, k3, k4⟩ := hA i j h
      exact ⟨k1, k2, k3, k4⟩
  | q => cases up; exacts [hP _ _ h, hQ _ _ h]
  | tq => cases up; exacts [hP _ _ (footTP_sub hn hnb hb h), hQ _ _ (footTQ_sub hn hnb hb h)]
  | p => cases up; exacts [hQ _ _ h, hP _ _ h]
  | tp => cases up; exacts [hQ _ _ (footTQ_sub hn hnb hb h), hP _ _ (footTP_sub hn hnb hb h)]

/-- Blocks with the same first row are worked on by the same thread. -/
theorem coreid_eq {a : Blk} (ha : IsBlk n nb a) (hb : IsBlk n nb b) (h : bst nb a = bst nb b) : coreid nb ac a = coreid nb ac b := by
  have h1 := stind_eq ha
  have h2 := stind_eq hb
  unfold coreid
  unfold stind at h1 h2 ⊢
  rw [Nat.add_sub_cancel] at h1 h2
  rw [h1, h2, h]

variable {𝕜 : Type v} [RCLike 𝕜]

/-- The sequential program: one sweep after the other. -/
noncomputable def chaseSeq (sel : Nat → Nat) (up : Bool) (n nb : Nat) (s : Store CM 𝕜) : Store CM 𝕜 :=
  (blocks n nb).foldl (fun s b => kern sel up n nb b s) s

/-- The blocks as tasks. -/
noncomputable def chaseProg (𝕜 : Type v) [RCLike 𝕜] (sel : Nat → Nat) (up : Bool) (n nb ac : Nat) : List (TTask CM 𝕜) :=
  (blocks n nb).map (btask n nb (coreid nb ac) (foot sel up n nb) (kern sel up n nb))

theorem chase_texec (hn : 2 ≤ n) (hnb : 0 < nb) (s : Store CM 𝕜) : texec (chaseProg 𝕜 sel up n nb ac) s = chaseSeq sel up n nb s := by
  unfold chaseProg chaseSeq texec
  rw [List.foldl_map]
  have hall : ∀ b ∈ blocks n nb, IsBlk n nb b := fun b hb => mem_blocks.mp hb
  generalize blocks n nb = L at hall
  induction L generalizing s with
  | nil => rfl
  | cons b L ih =>
    rw [List.foldl_cons, List.foldl_cons]
    have e : (btask n nb (coreid nb ac) (foot sel up n nb) (kern sel up n nb) b).run s = kern sel up n nb b s := by
      funext x i j
      by_cases h : foot sel up n nb b x i j
      · exact TTask.run_wr _ s h
      · refine (TTask.run_frame _ s h).trans ?_
        exact ((kern_within hn hnb (hall b (List.mem_cons_self ..))).2 s x i j h).symm
    rw [e]
    exact ih _ fun c hc => hall c (List.mem_cons_of_mem _ hc)

/-- **Every complete execution of the threads computes what the sequential program computes.** -/
theorem chase_exec_gen {loc : CM → Nat → Nat → CM × Nat} {valid : Foot CM} (hsel : ∀ s s', sel s = sel s' → s % 2 = s' % 2)
    (hinj : InjOn loc valid) (hfv : ∀ b, IsBlk n nb b → ∀ x i j, foot sel up n nb b x i j → valid x i j) (hn : 2 ≤ n) (hnb : 0 < nb) {Ts : List (Task CM (CM × Nat) 𝕜)}
    (hI : List.Forall₂ (TaskImpl loc id) (chaseProg 𝕜 sel up n nb ac) Ts) {σ : St}
    (hr : Reach n nb ac (cntOf n nb Ts) (coreid nb ac) σ) (hd : Done σ) (mem : CM × Nat → 𝕜) :
    (∀ x i j, valid x i j → runSched Ts (traceOf n nb σ.hist) mem (loc x i j) =
      chaseSeq sel up n nb (view loc mem) x i j) ∧
    ∀ l, (∀ x i j, valid x i j → loc x i j ≠ l) → runSched Ts (traceOf n nb σ.hist) mem l = mem l := by
  have hblk : ∀ t ∈ chaseProg 𝕜 sel up n nb ac, ∃ b, IsBlk n nb b ∧ t = btask n nb (coreid nb ac) (foot sel up n nb) (kern sel up n nb) b := by
    intro t ht
    obtain ⟨b, hb, rfl⟩ := List.mem_map.mp ht
    exact ⟨b, mem_blocks.mp hb, rfl⟩
  have hl : ∀ t ∈ chaseProg 𝕜 sel up n nb ac, t.Local := by
    intro t ht
    obtain ⟨b, hb, rfl⟩ := hblk t ht
    intro s s' h x i j hx
    exact (kern_within hn hnb hb).1 s s' (fun x i j hx => h x i j (Or.inl hx)) x i j hx
  have hin : ∀ t ∈ chaseProg 𝕜 sel up n nb ac, t.Inside valid := by
    intro t ht
    obtain ⟨b, hb, rfl⟩ := hblk t ht
    intro x i j hx
    exact hfv b hb x i j (hx.elim id id)
  have hc : TCovered (chaseProg 𝕜 sel up n nb ac) := by
    refine covered hn hnb fun a b ha hb hlt hfar hov => ?_
    obtain ⟨h1, h2⟩ := foot_apart hsel hn hnb ha hb hlt hfar hov
    exact ⟨coreid_eq ha hb h1, h2⟩
  obtain ⟨h1, h2⟩ := run_correct hinj hl hin hc hI (legal hn hnb hI hr hd) mem
  refine ⟨fun x i j hv => (h1 x i j hv).trans (by rw [chase_texec hn hnb]), fun l hx => h2 l fun t ht x i j hw => ?_⟩
  exact hx x i j (hin t ht x i j (Or.inr hw))

/-- The same for `wantz = 0`. -/
theorem chase_exec (hn : 2 ≤ n) (hnb : 0 < nb) {Ts : List (Task CM (CM × Nat) 𝕜)}
    (hI : List.Forall₂ (TaskImpl (chaseLoc up n nb) id) (chaseProg 𝕜 par up n nb ac) Ts) {σ : St}
    (hr : Reach n nb ac (cntOf n nb Ts) (coreid nb ac) σ) (hd : Done σ) (mem : CM × Nat → 𝕜) :
    (∀ x i j, chaseValid up n nb x i j → runSched Ts (traceOf n nb σ.hist) mem (chaseLoc up n nb x i j) =
      chaseSeq par up n nb (view (chaseLoc up n nb) mem) x i j) ∧
    ∀ l, (∀ x i j, chaseValid up n nb x i j → chaseLoc up n nb x i j ≠ l) → runSched Ts (traceOf n nb σ.hist) mem l = mem l :=
  chase_exec_gen (fun _ _ h => h) chase_inj (fun _ hb _ _ _ h => foot_valid hn hnb hb h) hn hnb hI hr hd mem

/-- The entries of the progress table that are used exist. -/
theorem table_bound (hn : 2 ≤ n) (hnb : 0 < nb) {cores : Nat} {cnt : Blk → Nat} (hb : IsBlk n nb b) {k : Kind}
    (hk : k ∈ acts n nb (allcores n nb cores) cnt b) :
    (∀ x v, k = .wait x v → x < 2 * nbtiles n nb + 3 + cores + 10) ∧ ∀ x v, k = .set x v → x < 2 * nbtiles n nb + 3 + cores + 10 := by
  have hlen : b.1 ≤ 2 * nbtiles n nb := by
    have hT : n ≤ nbtiles n nb * nb := by
      unfold nbtiles
      have h1 := Nat.lt_mul_div_succ (n + nb - 1) hnb
      rw [Nat.mul_add, Nat.mul_comm nb] at h1
      omega
    obtain ⟨q, hq⟩ : ∃ q, nbtiles n nb = q + 1 := ⟨nbtiles n nb - 1, by
      rcases Nat.eq_zero_or_pos (nbtiles n nb) with h | h
      · rw [h] at hT; omega
      · omega⟩
    have h2 : isLast n nb (2 * q + 2, b.2) := (isLast_even hb.1).mpr (by rw [hq, Nat.add_mul] at hT; omega)
    have h3 := (last_iff hn hnb (by omega) hb.1).mp h2
    have := hb.2.2.2
    omega
  have hac : allcores n nb cores ≤ cores := min_le_left _ _
  constructor
  · rintro x v rfl
    rcases mem_wait hk with ⟨h, -⟩ | ⟨h, -⟩ <;> omega
  · rintro x v rfl
    obtain ⟨-, -, h⟩ := mem_set.mp hk
    have : reachOf n nb (allcores n nb cores) b ≤ 3 + allcores n nb cores := by
      unfold reachOf
      split_ifs <;> omega
    omega

/-- Every block belongs to one of the threads. -/
theorem coreid_lt {cores : Nat} (hc : 0 < cores) : coreid nb (allcores n nb cores) b < cores := by
  have : 0 < allcores n nb cores := by
    unfold allcores
    omega
  exact (Nat.mod_lt _ this).trans_le (min_le_left _ _)

end

end Verif.Bulge

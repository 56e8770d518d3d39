/-
The threads of the bulge chasing (compute/pzgbbrd_static.c:101-176): busy waiting on the progress table.
-/
import Verif.Bulge
import Verif.Sched
import Mathlib.Data.List.Perm.Subperm
import Mathlib.Data.List.Infix
import Mathlib.Logic.Relation

namespace Verif.Bulge

open Verif.Sched

/-- One action of a thread while it works on a block. -/
inductive Kind where
  /-- `ss_cond_wait(x, 0, v)`: spins until `ss_progress[x] == v` (compute/pzgbbrd_static.c:35-39). -/
  | wait (x v : Nat)
  /-- Memory access number `k` of the kernel `plasma_core_zgbtype1cb`, `2cb` or `3cb`. -/
  | ev (k : Nat)
  /-- `ss_cond_set(x, 0, v)`: `ss_progress[x] = v` (compute/pzgbbrd_static.c:29-32). -/
  | set (x v : Nat)
deriving DecidableEq

/-- Actions of a block; `shift = 3`, `ac = allcoresnb`, `cnt b` memory accesses in the kernel
(compute/pzgbbrd_static.c:141-168). -/
def acts (n nb ac : Nat) (cnt : Blk → Nat) (b : Blk) : List Kind :=
  (if b.1 = 1 then [.wait (b.1 + 3 - 1) (b.2 - 1)] else [.wait (b.1 - 1) b.2, .wait (b.1 + 3 - 1) (b.2 - 1)]) ++
  (List.range (cnt b)).map .ev ++ [.set b.1 b.2] ++
  if isLast n nb b then (List.range' 1 (if b.1 = 1 then 3 else 3 + ac)).map fun j => .set (b.1 + j) b.2 else []

/-- `coreid`; `colpercore = nb` (compute/pzgbbrd_static.c:78,138). -/
def coreid (nb ac : Nat) (b : Blk) : Nat := stind nb b / nb % ac

/-- `plasma_ceildiv(minmn, nb)`, computed in floating point by the code (include/bulge.h:31-36), exact here. -/
def nbtiles (n nb : Nat) : Nat := (n + nb - 1) / nb

/-- `allcoresnb` (compute/pzgbbrd_static.c:77,81-84,99): at most one thread for each `nb` columns. -/
def allcores (n nb cores : Nat) : Nat := min cores (max (nbtiles n nb) 1)

/-- Program of thread `t`: the blocks it owns, in the order in which it meets them. -/
def progs (n nb ac : Nat) (cnt : Blk → Nat) (own : Blk → Nat) (t : Nat) : List (Blk × Kind) :=
  ((enum n nb).filter fun b => own b = t).flatMap fun b => (acts n nb ac cnt b).map fun k => (b, k)

/-- State of the parallel region: the progress table, what the threads still have to do, and what was done, in order. -/
structure St where
  prog : Nat → Nat
  todo : Nat → List (Blk × Kind)
  hist : List (Blk × Kind)

/-- The table after an action. -/
def upd (p : Nat → Nat) : Kind → Nat → Nat
  | .set x v => fun y => if y = x then v else p y
  | _ => p

/-- An action that can be completed now. -/
def ready (p : Nat → Nat) : Kind → Prop
  | .wait x v => p x = v
  | _ => True

/-- One action of one thread.  Sequential consistency of the accesses to the table and to memory is assumed: the code uses
`volatile int` without fences. -/
def Step (σ σ' : St) : Prop :=
  ∃ t b k rest, σ.todo t = (b, k) :: rest ∧ ready σ.prog k ∧
    σ' = ⟨upd σ.prog k, fun t' => if t' = t then rest else σ.todo t', σ.hist ++ [(b, k)]⟩

/-- Before the parallel region: the table is zero (compute/pzgbbrd_static.c:88). -/
def start (n nb ac : Nat) (cnt : Blk → Nat) (own : Blk → Nat) : St := ⟨fun _ => 0, progs n nb ac cnt own, []⟩

/-- States that threads can reach. -/
def Reach (n nb ac : Nat) (cnt : Blk → Nat) (own : Blk → Nat) (σ : St) : Prop :=
  Relation.ReflTransGen Step (start n nb ac cnt own) σ

/-- All threads have left the parallel region. -/
def Done (σ : St) : Prop := ∀ t, σ.todo t = []

/-- Block `a` has to be finished before block `b` starts. -/
def BDep (n nb : Nat) (a b : Blk) : Prop :=
  (a.2 = b.2 ∧ a.1 + 1 = b.1) ∨ (a.2 + 1 = b.2 ∧ a.1 = min (b.1 + 2) (len n nb a.2))

/-- The order that the scheduler guarantees directly: through the table, or because both blocks are worked on by the same thread.
The second alternative is only used for blocks of different sweeps. -/
def BRel (n nb : Nat) (own : Blk → Nat) (a b : Blk) : Prop :=
  BDep n nb a b ∨ (own a = own b ∧ tau a < tau b ∧ a.2 < b.2)

/-- Accesses that have to be in this order. -/
def Must (n nb : Nat) (own : Blk → Nat) (x y : Blk × Kind) : Prop :=
  ∃ i j, x.2 = .ev i ∧ y.2 = .ev j ∧ ((x.1 = y.1 ∧ i < j) ∨ BRel n nb own x.1 y.1)

section
variable {n nb ac : Nat} {cnt own : Blk → Nat}

/-- How far the table is set by a block. -/
def reachOf (n nb ac : Nat) (b : Blk) : Nat := if isLast n nb b then (if b.1 = 1 then 3 else 3 + ac) else 0

/-- The waits of a block. -/
def waits (b : Blk) : List Kind :=
  if b.1 = 1 then [.wait (b.1 + 3 - 1) (b.2 - 1)] else [.wait (b.1 - 1) b.2, .wait (b.1 + 3 - 1) (b.2 - 1)]

theorem acts_eq (b : Blk) : acts n nb ac cnt b =
    (waits b ++ (List.range (cnt b)).map .ev) ++ (List.range (reachOf n nb ac b + 1)).map fun j => .set (b.1 + j) b.2 := by
  unfold acts waits reachOf
  rw [List.append_assoc (_ ++ _) _ _]
  congr 1
  rw [List.range_succ_eq_map, List.map_cons, List.map_map]
  split
  · rw [List.range'_eq_map_range, List.map_map]
    show Kind.set b.1 b.2 :: _ = Kind.set (b.1 + 0) b.2 :: _
    rw [Nat.add_zero]
    congr 1
    refine List.map_congr_left fun j _ => ?_
    show Kind.set (b.1 + (1 + j)) b.2 = Kind.set (b.1 + (j + 1)) b.2
    rw [Nat.add_comm 1 j]
  · rfl

theorem mem_set {b : Blk} {x v : Nat} : Kind.set x v ∈ acts n nb ac cnt b ↔ v = b.2 ∧ b.1 ≤ x ∧ x ≤ b.1 + reachOf n nb ac b := by
  rw [acts_eq]
  simp only [List.mem_append, List.mem_map, List.mem_range, waits]
  constructor
  · rintro ((h | ⟨_, _, h⟩) | ⟨j, hj, h⟩)
    · split at h <;> simp at h
    · cases h
    · cases h
      exact ⟨rfl, by omega, by omega⟩
  · rintro ⟨rfl, h1, h2⟩
    exact Or.inr ⟨x - b.1, by omega, by rw [Nat.add_sub_cancel' h1]⟩

theorem mem_ev {b : Blk} {k : Nat} : Kind.ev k ∈ acts n nb ac cnt b ↔ k < cnt b := by
  rw [acts_eq]
  simp only [List.mem_append, List.mem_map, List.mem_range, waits]
  constructor
  · rintro ((h | ⟨_, h', h⟩) | ⟨j, hj, h⟩)
    · split at h <;> simp at h
    · cases h; exact h'
    · cases h
  · intro h
    exact Or.inl (Or.inr ⟨k, h, rfl⟩)

theorem mem_waits {b : Blk} {k : Kind} (h : k ∈ waits b) :
    (k = .wait (b.1 - 1) b.2 ∧ b.1 ≠ 1) ∨ k = .wait (b.1 + 2) (b.2 - 1) := by
  unfold waits at h
  split at h
  · simp at h; exact Or.inr h
  · simp at h
    rcases h with rfl | rfl
    · exact Or.inl ⟨rfl, by assumption⟩
    · exact Or.inr rfl

theorem mem_wait {b : Blk} {x v : Nat} (h : Kind.wait x v ∈ acts n nb ac cnt b) :
    (x = b.1 - 1 ∧ v = b.2 ∧ b.1 ≠ 1) ∨ (x = b.1 + 2 ∧ v = b.2 - 1) := by
  rw [acts_eq] at h
  simp only [List.mem_append, List.mem_map, List.mem_range] at h
  rcases h with (h | ⟨_, _, h⟩) | ⟨j, hj, h⟩
  · rcases mem_waits h with ⟨h, h'⟩ | h
    · cases h; exact Or.inl ⟨rfl, rfl, h'⟩
    · cases h; exact Or.inr ⟨rfl, rfl⟩
  · cases h
  · cases h

theorem waits_nodup {b : Blk} (hs : 1 ≤ b.2) : (waits b).Nodup := by
  unfold waits
  split
  · simp
  · simp; omega

theorem acts_nodup {b : Blk} (hs : 1 ≤ b.2) : (acts n nb ac cnt b).Nodup := by
  rw [acts_eq, List.nodup_append, List.nodup_append]
  refine ⟨⟨waits_nodup hs, ?_, ?_⟩, ?_, ?_⟩
  · refine (List.nodup_map_iff ?_).mpr List.nodup_range
    intro i j e; cases e; rfl
  · intro k hk k' hk'
    obtain ⟨i, -, rfl⟩ := List.mem_map.mp hk'
    rcases mem_waits hk with ⟨rfl, -⟩ | rfl <;> intro e <;> cases e
  · refine (List.nodup_map_iff ?_).mpr List.nodup_range
    intro i j e
    have e : Kind.set (b.1 + i) b.2 = Kind.set (b.1 + j) b.2 := e
    rw [Kind.set.injEq] at e
    omega
  · intro k hk k' hk'
    obtain ⟨i, -, rfl⟩ := List.mem_map.mp hk'
    rcases List.mem_append.mp hk with hk | hk
    · rcases mem_waits hk with ⟨rfl, -⟩ | rfl <;> intro e <;> cases e
    · obtain ⟨j, -, rfl⟩ := List.mem_map.mp hk
      intro e; cases e

theorem prefix_append {β : Type*} {p A B : List β} (h : p <+: A ++ B) : p <+: A ∨ ∃ r, p = A ++ r ∧ r <+: B := by
  obtain ⟨q, hq⟩ := h
  rcases List.append_eq_append_iff.mp hq with ⟨a, h1, h2⟩ | ⟨c, h1, h2⟩
  · exact Or.inl ⟨a, h1.symm⟩
  · exact Or.inr ⟨c, h1, ⟨q, h2.symm⟩⟩

theorem prefix_mem {k k' : Kind} {A B : List Kind} (h' : k' ∈ A) (h : k ∉ A) {pr : List Kind} (hp : pr <+: A ++ B) (hk : k ∈ pr) :
    k' ∈ pr := by
  rcases prefix_append hp with h1 | ⟨r, rfl, -⟩
  · exact absurd (h1.subset hk) h
  · exact List.mem_append_left _ h'

theorem prefix_flat {f : Blk → List Kind} {b : Blk} {k k' : Kind} (hP : ∀ pr, pr <+: f b → k ∈ pr → k' ∈ pr) :
    ∀ (L : List Blk) (l : List (Blk × Kind)), l <+: (L.flatMap fun b => (f b).map fun k => (b, k)) → (b, k) ∈ l → (b, k') ∈ l := by
  intro L
  induction L with
  | nil =>
    intro l hl hb
    rw [List.flatMap_nil, List.prefix_nil] at hl
    rw [hl] at hb; cases hb
  | cons c L ih =>
    intro l hl hb
    rw [List.flatMap_cons] at hl
    rcases prefix_append hl with h1 | ⟨r, rfl, hr⟩
    · obtain ⟨pr, hpr, rfl⟩ := List.prefix_map_iff.mp h1
      obtain ⟨k0, hk0, e⟩ := List.mem_map.mp hb
      cases e
      exact List.mem_map.mpr ⟨k', hP pr hpr hk0, rfl⟩
    · rcases List.mem_append.mp hb with hb | hb
      · obtain ⟨k0, hk0, e⟩ := List.mem_map.mp hb
        cases e
        exact List.mem_append_left _ (List.mem_map.mpr ⟨k', hP _ (List.prefix_refl _) hk0, rfl⟩)
      · exact List.mem_append_right _ (ih r hr hb)

theorem mem_progs (hn : 2 ≤ n) (hnb : 0 < nb) {t : Nat} {b : Blk} {k : Kind} :
    (b, k) ∈ progs n nb ac cnt own t ↔ IsBlk n nb b ∧ own b = t ∧ k ∈ acts n nb ac cnt b := by
  unfold progs
  simp only [List.mem_flatMap, List.mem_filter, List.mem_map, decide_eq_true_eq, (enum_spec hn hnb).1]
  constructor
  · rintro ⟨c, ⟨h1, h2⟩, k', h3, e⟩
    cases e
    exact ⟨h1, h2, h3⟩
  · rintro ⟨h1, h2, h3⟩
    exact ⟨b, ⟨h1, h2⟩, k, h3, rfl⟩

theorem progs_nodup (hn : 2 ≤ n) (hnb : 0 < nb) (t : Nat) : (progs n nb ac cnt own t).Nodup := by
  unfold progs
  rw [List.nodup_flatMap]
  constructor
  · intro b hb
    have hb := ((enum_spec hn hnb).1 b).mp (List.mem_of_mem_filter hb)
    refine (List.nodup_map_iff ?_).mpr (acts_nodup hb.1)
    intro k k' e
    exact congrArg Prod.snd e
  · refine List.Pairwise.imp ?_ ((enum_spec hn hnb).2.filter _)
    intro b b' h x hx hx'
    obtain ⟨k, -, rfl⟩ := List.mem_map.mp hx
    obtain ⟨k', -, e⟩ := List.mem_map.mp hx'
    exact h.2 (congrArg Prod.fst e).symm

theorem progs_sorted (hn : 2 ≤ n) (hnb : 0 < nb) (t : Nat) :
    (progs n nb ac cnt own t).Pairwise fun x y => tau x.1 ≤ tau y.1 := by
  unfold progs
  rw [List.pairwise_flatMap]
  constructor
  · intro b _
    rw [List.pairwise_map]
    exact List.pairwise_of_forall fun _ _ => le_rfl
  · refine List.Pairwise.imp ?_ ((enum_spec hn hnb).2.filter _)
    intro b b' h x hx y hy
    obtain ⟨k, -, rfl⟩ := List.mem_map.mp hx
    obtain ⟨k', -, rfl⟩ := List.mem_map.mp hy
    exact h.1

/-- `ss_progress[x]` was set to `v`. -/
def WasSet (h : List (Blk × Kind)) (x v : Nat) : Prop := ∃ b, (b, Kind.set x v) ∈ h

/-- What holds in all reachable states. -/
structure Inv (n nb ac : Nat) (cnt own : Blk → Nat) (σ : St) : Prop where
  split : ∀ t, (σ.hist.filter fun x => own x.1 = t) ++ σ.todo t = progs n nb ac cnt own t
  prog : ∀ x, σ.prog x = 0 ∨ WasSet σ.hist x (σ.prog x)
  waits : ∀ b x v, (b, Kind.wait x v) ∈ σ.hist → v = 0 ∨ WasSet σ.hist x v
  max : ∀ x v, WasSet σ.hist x v → v ≤ σ.prog x ∨ len n nb (σ.prog x + 1) + 2 < x
  order : σ.hist.Pairwise fun x y => ¬ Must n nb own y x

variable {σ : St}

theorem Inv.blk (hn : 2 ≤ n) (hnb : 0 < nb) (h : Inv n nb ac cnt own σ) {b : Blk} {k : Kind} (hb : (b, k) ∈ σ.hist) :
    IsBlk n nb b ∧ k ∈ acts n nb ac cnt b := by
  have h1 : (b, k) ∈ progs n nb ac cnt own (own b) := by
    rw [← h.split]
    exact List.mem_append_left _ (List.mem_filter.mpr ⟨hb, by simp⟩)
  rw [mem_progs hn hnb] at h1
  exact ⟨h1.1, h1.2.2⟩

theorem Inv.blk' (hn : 2 ≤ n) (hnb : 0 < nb) (h : Inv n nb ac cnt own σ) {t : Nat} {b : Blk} {k : Kind} (hb : (b, k) ∈ σ.todo t) :
    IsBlk n nb b ∧ own b = t ∧ k ∈ acts n nb ac cnt b := by
  have h1 : (b, k) ∈ progs n nb ac cnt own t := by
    rw [← h.split]
    exact List.mem_append_right _ hb
  rwa [mem_progs hn hnb] at h1

/-- Nothing is done twice. -/
theorem Inv.fresh (hn : 2 ≤ n) (hnb : 0 < nb) (h : Inv n nb ac cnt own σ) {t : Nat} {b : Blk} {k : Kind} (hb : (b, k) ∈ σ.todo t) :
    (b, k) ∉ σ.hist := by
  intro hb'
  have ho := (h.blk' hn hnb hb).2.1
  have h1 := progs_nodup (ac := ac) (cnt := cnt) (own := own) hn hnb t
  rw [← h.split, List.nodup_append] at h1
  exact h1.2.2 _ (List.mem_filter.mpr ⟨hb', by simp [ho]⟩) _ hb rfl

theorem Inv.before (h : Inv n nb ac cnt own σ) {b : Blk} {k k' : Kind} {A B : List Kind}
    (e : acts n nb ac cnt b = A ++ B) (hk' : k' ∈ A) (hk : k ∉ A) (hb : (b, k) ∈ σ.hist) : (b, k') ∈ σ.hist := by
  have h1 : (σ.hist.filter fun x => own x.1 = own b) <+: progs n nb ac cnt own (own b) := ⟨_, h.split _⟩
  have h2 := prefix_flat (b := b) (k := k) (k' := k') (f := acts n nb ac cnt)
    (fun pr hpr hkp => prefix_mem hk' hk (e ▸ hpr) hkp) _ _ h1 (List.mem_filter.mpr ⟨hb, by simp⟩)
  exact (List.mem_filter.mp h2).1

/-- The waits of a block are over before anything else. -/
theorem Inv.waited (h : Inv n nb ac cnt own σ) {b : Blk} {k : Kind} (hk : k ∉ Bulge.waits b) (hb : (b, k) ∈ σ.hist) {x v : Nat}
    (hw : Kind.wait x v ∈ Bulge.waits b) : v = 0 ∨ WasSet σ.hist x v := by
  have e := acts_eq (n := n) (nb := nb) (ac := ac) (cnt := cnt) b
  rw [List.append_assoc] at e
  exact h.waits _ _ _ (h.before e hw hk hb)

theorem not_wait {b : Blk} {k : Kind} (h : ∀ x v, k ≠ .wait x v) : k ∉ waits b := by
  intro hk
  rcases mem_waits hk with ⟨e, -⟩ | e <;> exact h _ _ e

theorem wait1 {b : Blk} (h : b.1 ≠ 1) : Kind.wait (b.1 - 1) b.2 ∈ waits b := by
  unfold waits
  rw [if_neg h]
  exact List.mem_cons_self ..

theorem wait2 (b : Blk) : Kind.wait (b.1 + 2) (b.2 - 1) ∈ waits b := by
  unfold waits
  split <;> simp

theorem reachOf_le (hn : 2 ≤ n) (hnb : 0 < nb) {b : Blk} (hb : IsBlk n nb b) (h : 0 < reachOf n nb ac b) : b.1 = len n nb b.2 := by
  unfold reachOf at h
  split at h
  · rename_i hl
    have := (last_iff hn hnb hb.2.2.1 hb.1).mp hl
    have := hb.2.2.2
    omega
  · omega

/-- Which block sets which entry. -/
theorem set_blk (hn : 2 ≤ n) (hnb : 0 < nb) {b : Blk} (hb : IsBlk n nb b) {x v : Nat} (h : Kind.set x v ∈ acts n nb ac cnt b) :
    b = (min x (len n nb v), v) ∧ 1 ≤ x := by
  obtain ⟨rfl, h1, h2⟩ := mem_set.mp h
  have h3 := hb.2.2.2
  have h4 := hb.2.2.1
  refine ⟨?_, by omega⟩
  refine Prod.ext ?_ rfl
  show b.1 = min x (len n nb b.2)
  rcases Nat.eq_zero_or_pos (reachOf n nb ac b) with h5 | h5
  · omega
  · have := reachOf_le hn hnb hb h5
    omega

theorem Inv.setAt (hn : 2 ≤ n) (hnb : 0 < nb) (h : Inv n nb ac cnt own σ) {x v : Nat} (hw : WasSet σ.hist x v) :
    ((min x (len n nb v), v), Kind.set x v) ∈ σ.hist ∧ IsBlk n nb (min x (len n nb v), v) ∧ 1 ≤ x := by
  obtain ⟨b, hb⟩ := hw
  obtain ⟨h1, h2⟩ := h.blk hn hnb hb
  obtain ⟨e, h3⟩ := set_blk hn hnb h1 h2
  rw [← e]
  exact ⟨hb, h1, h3⟩

theorem Inv.down (hn : 2 ≤ n) (hnb : 0 < nb) (h : Inv n nb ac cnt own σ) {y s : Nat} (hy : 1 ≤ y) (hw : WasSet σ.hist (y + 1) s) :
    WasSet σ.hist y s := by
  obtain ⟨h1, hb, -⟩ := h.setAt hn hnb hw
  have hl := len_pos n nb s
  have h0 : 1 ≤ s := hb.1
  by_cases hc : y + 1 ≤ len n nb s
  · rw [min_eq_left hc] at h1
    have := h.waited (b := (y + 1, s)) (not_wait (by simp)) h1 (wait1 (b := (y + 1, s)) (by show y + 1 ≠ 1; omega))
    rcases this with h | h
    · have h : s = 0 := h
      omega
    · exact h
  · rw [min_eq_right (by omega)] at h1 hb
    obtain ⟨-, h2⟩ := h.blk hn hnb h1
    obtain ⟨-, h3, h4⟩ := mem_set.mp h2
    simp only at h3 h4
    have e := acts_eq (n := n) (nb := nb) (ac := ac) (cnt := cnt) (len n nb s, s)
    have er : List.range (reachOf n nb ac (len n nb s, s) + 1) = List.range (y + 1 - len n nb s) ++
        (List.range (reachOf n nb ac (len n nb s, s) + 1 - (y + 1 - len n nb s))).map (fun i => y + 1 - len n nb s + i) := by
      rw [← List.range_add]; congr 1; omega
    rw [er, List.map_append, ← List.append_assoc] at e
    refine ⟨_, h.before e (k' := .set y s) ?_ ?_ h1⟩
    · refine List.mem_append_right _ (List.mem_map.mpr ⟨y - len n nb s, List.mem_range.mpr (by omega), ?_⟩)
      show Kind.set (len n nb s + (y - len n nb s)) s = _
      rw [Nat.add_sub_cancel' (by omega)]
    · intro hk
      rcases List.mem_append.mp hk with hk | hk
      · rcases List.mem_append.mp hk with hk | hk
        · exact not_wait (by simp) hk
        · obtain ⟨_, _, e⟩ := List.mem_map.mp hk
          cases e
      · obtain ⟨j, hj, e⟩ := List.mem_map.mp hk
        rw [List.mem_range] at hj
        have e : Kind.set (len n nb s + j) s = Kind.set (y + 1) s := e
        rw [Kind.set.injEq] at e
        omega

theorem Inv.downs (hn : 2 ≤ n) (hnb : 0 < nb) (h : Inv n nb ac cnt own σ) {x y s : Nat} (hx : 1 ≤ x) (hxy : x ≤ y)
    (hw : WasSet σ.hist y s) : WasSet σ.hist x s := by
  induction y, hxy using Nat.le_induction with
  | base => exact hw
  | succ y hy ih => exact ih (h.down hn hnb (by omega) hw)

theorem Inv.cross (hn : 2 ≤ n) (hnb : 0 < nb) (h : Inv n nb ac cnt own σ) {x s : Nat} (hs : 1 ≤ s) (hw : WasSet σ.hist x (s + 1)) :
    WasSet σ.hist (min x (len n nb (s + 1)) + 2) s := by
  obtain ⟨h1, hb, -⟩ := h.setAt hn hnb hw
  have := h.waited (not_wait (by simp)) h1 (wait2 (min x (len n nb (s + 1)), s + 1))
  rcases this with h | h
  · have h : s + 1 - 1 = 0 := h
    omega
  · exact h

theorem Inv.crosses (hn : 2 ≤ n) (hnb : 0 < nb) (h : Inv n nb ac cnt own σ) {s s' : Nat} (hs : 1 ≤ s) (hss : s < s') :
    ∀ {x}, WasSet σ.hist x s' → WasSet σ.hist (min x (len n nb (s + 1)) + 2) s := by
  obtain ⟨d, rfl⟩ := Nat.exists_eq_add_of_le hss
  induction d generalizing s with
  | zero => exact fun hw => h.cross hn hnb hs hw
  | succ d ih =>
    intro x hw
    have h1 := ih (s := s + 1) (by omega) (by omega) (x := x) (by
      rw [show s + 1 + 1 + d = s.succ + (d + 1) by omega]; exact hw)
    have h2 := h.cross hn hnb hs h1
    have := len_two hn hnb (s := s + 1) (by omega)
    refine h.downs hn hnb (by omega) ?_ h2
    have e : s + 1 + 1 = s + 2 := rfl
    rw [e] at this
    show min x (len n nb (s + 1)) + 2 ≤ min (min x (len n nb (s + 1 + 1)) + 2) (len n nb (s + 1)) + 2
    rw [e]
    omega

theorem start_inv : Inv n nb ac cnt own (start n nb ac cnt own) where
  split t := by simp [start]
  prog x := Or.inl rfl
  waits b x v h := by simp [start] at h
  max x v h := by obtain ⟨b, hb⟩ := h; simp [start] at hb
  order := List.Pairwise.nil

theorem WasSet.mono {h h' : List (Blk × Kind)} (hs : ∀ x ∈ h, x ∈ h') {x v : Nat} (hw : WasSet h x v) : WasSet h' x v := by
  obtain ⟨b, hb⟩ := hw
  exact ⟨b, hs _ hb⟩

theorem step_inv (hn : 2 ≤ n) (hnb : 0 < nb) (h : Inv n nb ac cnt own σ) {σ' : St} (hs : Step σ σ') : Inv n nb ac cnt own σ' := by
  obtain ⟨t, b, k, rest, ht, hr, rfl⟩ := hs
  have hin : (b, k) ∈ σ.todo t := by rw [ht]; exact List.mem_cons_self ..
  obtain ⟨hb, ho, hk⟩ := h.blk' hn hnb hin
  have hfr := h.fresh hn hnb hin
  have hmono : ∀ x ∈ σ.hist, x ∈ σ.hist ++ [(b, k)] := fun x hx => List.mem_append_left _ hx
  have hnew : ∀ {x}, x ∈ σ.hist ++ [(b, k)] → x ∈ σ.hist ∨ x = (b, k) := fun hx => by simpa using hx
  refine ⟨?_, ?_, ?_, ?_, ?_⟩
  · intro t'
    rw [← h.split t', List.filter_append]
    by_cases e : t' = t
    · subst e
      simp only [if_true, ho, decide_true, List.filter_cons_of_pos, List.filter_nil]
      rw [ht, List.append_assoc]
      rfl
    · simp only [if_neg e]
      rw [List.filter_cons_of_neg (by simp [ho]; exact fun h => e h.symm), List.filter_nil, List.append_nil]
  · intro x
    show upd σ.prog k x = 0 ∨ WasSet (σ.hist ++ [(b, k)]) x (upd σ.prog k x)
    have old : σ.prog x = 0 ∨ WasSet (σ.hist ++ [(b, k)]) x (σ.prog x) := (h.prog x).imp_right (WasSet.mono hmono)
    cases k with
    | wait y v => exact old
    | ev i => exact old
    | set y v =>
      unfold upd
      simp only
      split
      · rename_i e
        subst e
        exact Or.inr ⟨b, by simp⟩
      · exact old
  · intro b' x v hx
    rcases hnew hx with hx | hx
    · exact (h.waits _ _ _ hx).imp_right (WasSet.mono hmono)
    · cases hx
      have hr : σ.prog x = v := hr
      rcases h.prog x with h0 | h0
      · exact Or.inl (by omega)
      · rw [hr] at h0
        exact Or.inr (WasSet.mono hmono h0)
  · intro x v hx
    show v ≤ upd σ.prog k x ∨ len n nb (upd σ.prog k x + 1) + 2 < x
    cases k with
    | wait y u =>
      refine h.max x v ?_
      obtain ⟨c, hc⟩ := hx
      rcases hnew hc with hc | hc
      · exact ⟨c, hc⟩
      · cases hc
    | ev i =>
      refine h.max x v ?_
      obtain ⟨c, hc⟩ := hx
      rcases hnew hc with hc | hc
      · exact ⟨c, hc⟩
      · cases hc
    | set y u =>
      have hu : upd σ.prog (.set y u) x = if x = y then u else σ.prog x := rfl
      rw [hu]
      by_cases e : x = y
      · subst e
        rw [if_pos rfl]
        obtain ⟨c, hc0⟩ := hx
        rcases hnew hc0 with hc | hc
        · by_contra hcon
          rw [not_or] at hcon
          obtain ⟨e1, -⟩ := set_blk hn hnb hb hk
          obtain ⟨rfl, -, -⟩ := mem_set.mp hk
          have h1 := h.crosses hn hnb hb.1 (show b.2 < v by omega) ⟨c, hc⟩
          obtain ⟨-, -, hx1⟩ := h.setAt hn hnb (x := x) (v := v) ⟨c, hc⟩
          have h2 := h.downs hn hnb hx1 (by omega) h1
          obtain ⟨h3, -, -⟩ := h.setAt hn hnb h2
          rw [← e1] at h3
          exact hfr h3
        · cases hc
          exact Or.inl le_rfl
      · rw [if_neg e]
        refine h.max x v ?_
        obtain ⟨c, hc⟩ := hx
        rcases hnew hc with hc | hc
        · exact ⟨c, hc⟩
        · cases hc
          exact absurd rfl e
  · show (σ.hist ++ [(b, k)]).Pairwise _
    rw [List.pairwise_append]
    refine ⟨h.order, List.pairwise_singleton _ _, ?_⟩
    intro x hx y hy
    rw [List.mem_singleton] at hy
    subst hy
    rintro ⟨i, j, e1, e2, hm⟩
    obtain ⟨a, ka⟩ := x
    simp only at e1 e2 hm
    subst e1 e2
    rcases hm with ⟨rfl, hlt⟩ | hd | ⟨hd1, hd2, -⟩
    · refine hfr ?_
      have e := acts_eq (n := n) (nb := nb) (ac := ac) (cnt := cnt) b
      have hj := mem_ev.mp ((h.blk hn hnb hx).2)
      have er : List.range (cnt b) = List.range (i + 1) ++ (List.range (cnt b - (i + 1))).map (fun l => i + 1 + l) := by
        rw [← List.range_add]; congr 1; omega
      rw [er, List.map_append, ← List.append_assoc, List.append_assoc _ (List.map Kind.ev (List.map _ _))] at e
      refine h.before e ?_ ?_ hx
      · exact List.mem_append_right _ (List.mem_map.mpr ⟨i, List.mem_range.mpr (by omega), rfl⟩)
      · intro hk
        rcases List.mem_append.mp hk with hk | hk
        · exact not_wait (by simp) hk
        · obtain ⟨l, hl, e⟩ := List.mem_map.mp hk
          rw [List.mem_range] at hl
          cases e
          omega
    · have hset : WasSet σ.hist b.1 b.2 := by
        have hb1 := hb.2.2.1
        have hb2 := hb.1
        have hb3 := hb.2.2.2
        rcases hd with ⟨e1, e2⟩ | ⟨e1, e2⟩
        · have := h.waited (not_wait (by simp)) hx (wait1 (b := a) (by omega))
          rw [← e1, ← e2, Nat.add_sub_cancel] at this
          rcases this with g | g
          · omega
          · exact g
        · have := h.waited (not_wait (by simp)) hx (wait2 a)
          rw [← e1, Nat.add_sub_cancel] at this
          rcases this with g | g
          · omega
          · exact h.downs hn hnb hb1 (by omega) g
      obtain ⟨h1, -, -⟩ := h.setAt hn hnb hset
      rw [min_eq_left hb.2.2.2] at h1
      refine hfr (h.before (acts_eq b) (k := .set b.1 b.2) ?_ ?_ h1)
      · rw [mem_ev] at hk
        exact List.mem_append_right _ (List.mem_map.mpr ⟨i, List.mem_range.mpr hk, rfl⟩)
      · intro hk
        rcases List.mem_append.mp hk with hk | hk
        · exact not_wait (by simp) hk
        · obtain ⟨_, _, e⟩ := List.mem_map.mp hk
          cases e
    · have hsort := progs_sorted (ac := ac) (cnt := cnt) (own := own) hn hnb t
      rw [← h.split, List.pairwise_append] at hsort
      have := hsort.2.2 _ (List.mem_filter.mpr ⟨hx, by simp [← hd1, ho]⟩) _ hin
      simp only at this
      omega

theorem reach_inv (hn : 2 ≤ n) (hnb : 0 < nb) (h : Reach n nb ac cnt own σ) : Inv n nb ac cnt own σ := by
  induction h with
  | refl => exact start_inv
  | tail _ hs ih => exact step_inv hn hnb ih hs

/-- **No deadlock**: unless all threads are done, one of them can go on. -/
theorem progress (hn : 2 ≤ n) (hnb : 0 < nb) (h : Inv n nb ac cnt own σ) (hd : ¬ Done σ) : ∃ σ', Step σ σ' := by
  have hex : ∃ τ t b k rest, σ.todo t = (b, k) :: rest ∧ tau b = τ := by
    unfold Done at hd
    rw [not_forall] at hd
    obtain ⟨t, ht⟩ := hd
    obtain ⟨⟨b, k⟩, rest, e⟩ := List.exists_cons_of_ne_nil ht
    exact ⟨tau b, t, b, k, rest, e, rfl⟩
  classical
  obtain ⟨t, b, k, rest, ht, hτ⟩ := Nat.find_spec hex
  have hmin := fun m hm => Nat.find_min hex (m := m) hm
  rw [← hτ] at hmin
  have hin : (b, k) ∈ σ.todo t := by rw [ht]; exact List.mem_cons_self ..
  obtain ⟨hb, ho, hk⟩ := h.blk' hn hnb hin
  -- all blocks of earlier iterations are complete
  have hcomp : ∀ c k', IsBlk n nb c → tau c < tau b → k' ∈ acts n nb ac cnt c → (c, k') ∈ σ.hist := by
    intro c k' hc hlt hk'
    have h1 : (c, k') ∈ progs n nb ac cnt own (own c) := (mem_progs hn hnb).mpr ⟨hc, rfl, hk'⟩
    have hsort := progs_sorted (ac := ac) (cnt := cnt) (own := own) hn hnb (own c)
    rw [← h.split, List.mem_append] at h1
    rcases h1 with h1 | h1
    · exact (List.mem_filter.mp h1).1
    · exfalso
      rw [← h.split, List.pairwise_append] at hsort
      obtain ⟨⟨b', kb⟩, rest', e⟩ := List.exists_cons_of_ne_nil (List.ne_nil_of_mem h1)
      have hle : tau b' ≤ tau c := by
        have hs := hsort.2.1
        rw [e] at hs h1
        rcases List.mem_cons.mp h1 with h1 | h1
        · cases h1; exact le_rfl
        · exact (List.pairwise_cons.mp hs).1 _ h1
      exact hmin (tau b') (by omega) ⟨own c, b', kb, rest', e, rfl⟩
  have hself : ¬ WasSet σ.hist b.1 b.2 ∨ ∀ x v, k ≠ .wait x v := by
    by_cases hw : ∃ x v, k = .wait x v
    · obtain ⟨x, v, rfl⟩ := hw
      left
      intro hset
      obtain ⟨h1, -, -⟩ := h.setAt hn hnb hset
      rw [min_eq_left hb.2.2.2] at h1
      have hmem : Kind.wait x v ∈ waits b := by
        rw [acts_eq] at hk
        simp only [List.mem_append, List.mem_map] at hk
        rcases hk with (hk | ⟨_, _, e⟩) | ⟨_, _, e⟩
        · exact hk
        · cases e
        · cases e
      have e := acts_eq (n := n) (nb := nb) (ac := ac) (cnt := cnt) b
      rw [List.append_assoc] at e
      exact h.fresh hn hnb hin (h.before e hmem (not_wait (by simp)) h1)
    · right
      intro x v e
      exact hw ⟨x, v, e⟩
  have hready : ready σ.prog k := by
    cases k with
    | ev i => trivial
    | set x v => trivial
    | wait x v =>
      rcases hself with hself | hself
      swap
      · exact absurd rfl (hself x v)
      show σ.prog x = v
      obtain ⟨hb2, hb2', hb1, hb1'⟩ := hb
      have hlen := fun s => len_pos n nb s
      -- later sweeps have not come this far
      have hlate : ∀ y u, b.1 - 1 ≤ y → 1 ≤ y → b.2 < u → WasSet σ.hist y u → False := by
        intro y u hy hy1 hu hw
        have h1 := h.crosses hn hnb hb2 hu hw
        have := len_two hn hnb hb2
        exact hself (h.downs hn hnb hb1 (by omega) h1)
      rcases mem_wait hk with ⟨rfl, rfl, hne⟩ | ⟨rfl, rfl⟩
      · have hset : WasSet σ.hist (b.1 - 1) b.2 := by
          refine ⟨(b.1 - 1, b.2), hcomp _ _ ⟨hb2, hb2', by show 1 ≤ b.1 - 1; omega, by show b.1 - 1 ≤ len n nb b.2; omega⟩ ?_ ?_⟩
          · show 3 * (b.2 - 1) + (b.1 - 1) < 3 * (b.2 - 1) + b.1
            omega
          · exact mem_set.mpr ⟨rfl, le_rfl, by show b.1 - 1 ≤ b.1 - 1 + _; omega⟩
        rcases h.max _ _ hset with hm | hm
        · by_contra hcon
          rcases h.prog (b.1 - 1) with h0 | h0
          · omega
          · exact hlate _ _ le_rfl (by omega) (by omega) h0
        · exfalso
          have hv : σ.prog (b.1 - 1) < b.2 := by
            by_contra hge
            rcases h.prog (b.1 - 1) with h0 | h0
            · omega
            · rcases Nat.eq_or_lt_of_le (Nat.le_of_not_lt hge) with he | hlt
              · rw [← he] at hm
                have := len_two hn hnb hb2
                omega
              · exact hlate _ _ le_rfl (by omega) hlt h0
          have := len_anti hn hnb (s := σ.prog (b.1 - 1) + 1) (s' := b.2) (by omega) (by omega)
          omega
      · rcases Nat.eq_or_lt_of_le hb2 with he | hgt
        · -- first sweep: the entry is still zero
          rw [← he]
          rcases h.prog (b.1 + 2) with h0 | h0
          · exact h0
          · exfalso
            have h1 : 1 ≤ σ.prog (b.1 + 2) := by
              obtain ⟨-, hB, -⟩ := h.setAt hn hnb h0
              exact hB.1
            rcases Nat.eq_or_lt_of_le h1 with h2 | h2
            · rw [← h2, he] at h0
              exact hself (h.downs hn hnb hb1 (by omega) h0)
            · exact hlate _ _ (by omega) (by omega) (by omega) h0
        · have hanti := len_mono hn hnb (s := b.2 - 1) (by omega)
          rw [Nat.sub_add_cancel hb2] at hanti
          have hset : WasSet σ.hist (b.1 + 2) (b.2 - 1) := by
            have hB : IsBlk n nb (min (b.1 + 2) (len n nb (b.2 - 1)), b.2 - 1) := by
              refine ⟨?_, ?_, ?_, ?_⟩
              · show 1 ≤ b.2 - 1; omega
              · show b.2 - 1 < n; omega
              · show 1 ≤ min (b.1 + 2) _; have := hlen (b.2 - 1); omega
              · exact min_le_right _ _
            refine ⟨_, hcomp _ _ hB ?_ (mem_set.mpr ⟨rfl, min_le_left _ _, ?_⟩)⟩
            · show 3 * (b.2 - 1 - 1) + min (b.1 + 2) _ < 3 * (b.2 - 1) + b.1
              omega
            · show b.1 + 2 ≤ min (b.1 + 2) (len n nb (b.2 - 1)) + reachOf n nb ac (min (b.1 + 2) (len n nb (b.2 - 1)), b.2 - 1)
              by_cases hc : b.1 + 2 ≤ len n nb (b.2 - 1)
              · rw [min_eq_left hc]; omega
              · rw [min_eq_right (by omega)]
                unfold reachOf
                rw [if_pos (len_last hnb (by omega))]
                split <;> omega
          rcases h.max _ _ hset with hm | hm
          · by_contra hcon
            rcases h.prog (b.1 + 2) with h0 | h0
            · omega
            · rcases Nat.eq_or_lt_of_le (show b.2 ≤ σ.prog (b.1 + 2) by omega) with he | hlt
              · rw [← he] at h0
                exact hself (h.downs hn hnb hb1 (by omega) h0)
              · exact hlate _ _ (by omega) (by omega) hlt h0
          · exfalso
            have hv : σ.prog (b.1 + 2) < b.2 - 1 := by
              by_contra hge
              rcases h.prog (b.1 + 2) with h0 | h0
              · omega
              · rcases Nat.lt_trichotomy (σ.prog (b.1 + 2)) b.2 with hlt | he | hlt
                · have : σ.prog (b.1 + 2) = b.2 - 1 := by omega
                  rw [this, Nat.sub_add_cancel hb2] at hm
                  omega
                · rw [he] at h0
                  exact hself (h.downs hn hnb hb1 (by omega) h0)
                · exact hlate _ _ (by omega) (by omega) hlt h0
            have := len_anti hn hnb (s := σ.prog (b.1 + 2) + 1) (s' := b.2) (by omega) (by omega)
            omega
  exact ⟨_, t, b, k, rest, ht, hready, rfl⟩

/-- Nothing happens twice. -/
theorem Inv.nodup (hn : 2 ≤ n) (hnb : 0 < nb) (h : Inv n nb ac cnt own σ) : σ.hist.Nodup := by
  rw [List.nodup_iff_count_le_one]
  rintro ⟨b, k⟩
  have h1 := progs_nodup (ac := ac) (cnt := cnt) (own := own) hn hnb (own b)
  rw [← h.split, List.nodup_append] at h1
  have h2 := List.nodup_iff_count_le_one.mp h1.1 (b, k)
  rwa [List.count_filter (by simp)] at h2

/-- Number of actions of all threads. -/
def total (n nb ac : Nat) (cnt : Blk → Nat) : Nat := ((enum n nb).flatMap fun b => (acts n nb ac cnt b).map fun k => (b, k)).length

/-- **Termination**: no execution has more than `total` steps. -/
theorem Inv.bound (hn : 2 ≤ n) (hnb : 0 < nb) (h : Inv n nb ac cnt own σ) : σ.hist.length ≤ total n nb ac cnt := by
  refine ((h.nodup hn hnb).subperm ?_).length_le
  rintro ⟨b, k⟩ hb
  obtain ⟨h1, h2⟩ := h.blk hn hnb hb
  exact List.mem_flatMap.mpr ⟨b, ((enum_spec hn hnb).1 b).mpr h1, List.mem_map.mpr ⟨k, h2, rfl⟩⟩

theorem step_length {σ' : St} (hs : Step σ σ') : σ'.hist.length = σ.hist.length + 1 := by
  obtain ⟨t, b, k, rest, ht, hr, rfl⟩ := hs
  simp

/-- When all threads are done everything was done. -/
theorem Inv.all (hn : 2 ≤ n) (hnb : 0 < nb) (h : Inv n nb ac cnt own σ) (hd : Done σ) {b : Blk} {k : Kind} :
    (b, k) ∈ σ.hist ↔ IsBlk n nb b ∧ k ∈ acts n nb ac cnt b := by
  refine ⟨h.blk hn hnb, fun ⟨h1, h2⟩ => ?_⟩
  have h3 : (b, k) ∈ progs n nb ac cnt own (own b) := (mem_progs hn hnb).mpr ⟨h1, rfl, h2⟩
  rw [← h.split, hd, List.append_nil] at h3
  exact (List.mem_filter.mp h3).1

/-- Every state reached leads to the end. -/
theorem reach_done (hn : 2 ≤ n) (hnb : 0 < nb) (h : Reach n nb ac cnt own σ) : ∃ σ', Relation.ReflTransGen Step σ σ' ∧ Done σ' := by
  obtain ⟨d, hd⟩ : ∃ d, total n nb ac cnt - σ.hist.length = d := ⟨_, rfl⟩
  induction d generalizing σ with
  | zero =>
    by_cases hD : Done σ
    · exact ⟨σ, .refl, hD⟩
    · exfalso
      obtain ⟨σ', hs⟩ := progress hn hnb (reach_inv hn hnb h) hD
      have h1 := (reach_inv hn hnb (h.tail hs)).bound hn hnb
      rw [step_length hs] at h1
      omega
  | succ d ih =>
    by_cases hD : Done σ
    · exact ⟨σ, .refl, hD⟩
    · obtain ⟨σ', hs⟩ := progress hn hnb (reach_inv hn hnb h) hD
      obtain ⟨σ'', h1, h2⟩ := ih (h.tail hs) (by rw [step_length hs]; omega)
      exact ⟨σ'', (Relation.ReflTransGen.single hs).trans h1, h2⟩

end

end Verif.Bulge

/-
Executions of the bulge chasing are legal executions of the sequential program that does one sweep after the other.
-/
import Verif.BulgeSched
import Verif.Tile
import Mathlib.Data.List.Basic
import Mathlib.Data.List.Perm.Basic

namespace Verif.Bulge

open Verif.Sched Verif.Tile

/-- Names of the arrays of the bulge chasing: the band matrix, `VQ`, `VP`, `TAUQ`, `TAUP`; `dep a b` is used only to say that block `a`
has to come before block `b`.  (`WORK` is private to a thread.) -/
inductive CM where
  | a | q | p | tq | tp
  | dep (a b : Blk)
deriving DecidableEq

/-- The blocks, one sweep after the other. -/
def blocks (n nb : Nat) : List Blk :=
  (List.range' 1 (n - 1)).flatMap fun s => (List.range' 1 (len n nb s)).map fun p => (p, s)

/-- Order of the blocks in `blocks`. -/
def BLex (a b : Blk) : Prop := a.2 < b.2 ∨ (a.2 = b.2 ∧ a.1 < b.1)

open Classical in
/-- A block as a task. -/
noncomputable def btask {α : Type*} (n nb : Nat) (own : Blk → Nat) (F : Blk → Foot CM) (k : Blk → Store CM α → Store CM α) (b : Blk) :
    TTask CM α where
  deps := ((blocks n nb).filter fun a => BRel n nb own a b).map (fun a => (.dep a b, true)) ++
    ((blocks n nb).filter fun c => BRel n nb own b c).map (fun c => (.dep b c, true))
  rd := F b
  wr := F b
  f := k b

/-- Memory accesses of an execution, in order. -/
def traceOf (n nb : Nat) (h : List (Blk × Kind)) : List Occ :=
  h.filterMap fun x => match x.2 with
    | .ev k => some ((blocks n nb).idxOf x.1, k)
    | _ => none

section
variable {n nb ac : Nat} {own : Blk → Nat} {α : Type*} {F : Blk → Foot CM} {k : Blk → Store CM α → Store CM α}

theorem mem_blocks {b : Blk} : b ∈ blocks n nb ↔ IsBlk n nb b := by
  unfold blocks IsBlk
  simp only [List.mem_flatMap, List.mem_map, List.mem_range'_1]
  constructor
  · rintro ⟨s, h1, p, h2, rfl⟩
    exact ⟨h1.1, by show s < n; omega, h2.1, by show p ≤ len n nb s; omega⟩
  · rintro ⟨h1, h2, h3, h4⟩
    exact ⟨b.2, ⟨h1, by omega⟩, b.1, ⟨h3, by omega⟩, rfl⟩

theorem blocks_sorted : (blocks n nb).Pairwise BLex := by
  unfold blocks
  rw [List.pairwise_flatMap]
  constructor
  · intro s _
    rw [List.pairwise_map]
    refine List.Pairwise.imp ?_ List.pairwise_lt_range'
    intro a b h
    exact Or.inr ⟨rfl, h⟩
  · refine List.Pairwise.imp ?_ List.pairwise_lt_range'
    intro a b h x hx y hy
    obtain ⟨_, _, rfl⟩ := List.mem_map.mp hx
    obtain ⟨_, _, rfl⟩ := List.mem_map.mp hy
    exact Or.inl h

theorem BLex.irrefl {a b : Blk} (h : BLex a b) (h' : BLex b a) : False := by
  unfold BLex at h h'
  omega

theorem blocks_nodup : (blocks n nb).Nodup :=
  blocks_sorted.imp fun h e => by subst e; exact h.irrefl h

theorem blocks_lt {i j : Nat} {a b : Blk} (ha : (blocks n nb)[i]? = some a) (hb : (blocks n nb)[j]? = some b) : i < j ↔ BLex a b := by
  obtain ⟨hi, rfl⟩ := List.getElem?_eq_some_iff.mp ha
  obtain ⟨hj, rfl⟩ := List.getElem?_eq_some_iff.mp hb
  have hs := List.pairwise_iff_getElem.mp (blocks_sorted (n := n) (nb := nb))
  constructor
  · exact fun h => hs i j hi hj h
  · intro h
    rcases Nat.lt_trichotomy i j with h1 | rfl | h1
    · exact h1
    · exact (h.irrefl h).elim
    · exact (h.irrefl (hs j i hj hi h1)).elim

theorem BRel.lex {a b : Blk} (h : BRel n nb own a b) : BLex a b := by
  unfold BLex
  rcases h with (⟨h1, h2⟩ | ⟨h1, h2⟩) | ⟨-, -, h⟩
  · right; omega
  · left; omega
  · exact Or.inl h

theorem BRel.dep {a b : Blk} (ha : IsBlk n nb a) (hb : IsBlk n nb b) (h : BRel n nb own a b) :
    TDepOn (btask n nb own F k a) (btask n nb own F k b) := by
  right
  refine ⟨(.dep a b, true), ?_, (.dep a b, true), ?_, rfl, Or.inl rfl⟩
  · refine List.mem_append_right _ (List.mem_map.mpr ⟨b, List.mem_filter.mpr ⟨mem_blocks.mpr hb, ?_⟩, rfl⟩)
    simpa using h
  · refine List.mem_append_left _ (List.mem_map.mpr ⟨a, List.mem_filter.mpr ⟨mem_blocks.mpr ha, ?_⟩, rfl⟩)
    simpa using h

theorem mem_deps {b : Blk} {d : CM × Bool} (h : d ∈ (btask n nb own F k b).deps) :
    ∃ x y, d.1 = .dep x y ∧ BRel n nb own x y ∧ (b = x ∨ b = y) := by
  rcases List.mem_append.mp h with h | h
  · obtain ⟨x, hx, rfl⟩ := List.mem_map.mp h
    exact ⟨x, b, rfl, by simpa using (List.mem_filter.mp hx).2, Or.inr rfl⟩
  · obtain ⟨x, hx, rfl⟩ := List.mem_map.mp h
    exact ⟨b, x, rfl, by simpa using (List.mem_filter.mp hx).2, Or.inl rfl⟩

theorem dep_rel {a b : Blk} (hl : BLex a b) (h : TDepOn (btask n nb own F k a) (btask n nb own F k b)) : BRel n nb own a b := by
  rcases h with h | ⟨d, hd, d', hd', e, -⟩
  · exact absurd h (Nat.lt_irrefl _)
  · obtain ⟨x, y, e1, hr, h1⟩ := mem_deps hd
    obtain ⟨x', y', e2, hr', h2⟩ := mem_deps hd'
    rw [e1, e2] at e
    obtain ⟨rfl, rfl⟩ : x = x' ∧ y = y' := by
      rw [CM.dep.injEq] at e
      exact e
    rcases h1 with rfl | rfl <;> rcases h2 with rfl | rfl
    · exact (hl.irrefl hl).elim
    · exact hr
    · exact (hl.irrefl hr.lex).elim
    · exact (hl.irrefl hl).elim

/-- The order among the blocks through the table. -/
theorem chain (hn : 2 ≤ n) (hnb : 0 < nb) : ∀ (d : Nat) {a b : Blk}, IsBlk n nb a → IsBlk n nb b → a.2 + d = b.2 →
    a.1 ≤ b.1 + 2 * d → a ≠ b → Relation.TransGen (fun x y => IsBlk n nb x ∧ IsBlk n nb y ∧ BRel n nb own x y) a b := by
  intro d
  induction d with
  | zero =>
    intro a b ha hb h2 h1 hne
    obtain ⟨p, s⟩ := a
    obtain ⟨p', s'⟩ := b
    simp only [Nat.add_zero] at h2
    obtain rfl : s = s' := h2
    have hlt : p < p' := by
      simp only at h1
      rcases Nat.lt_or_ge p p' with h | h
      · exact h
      · obtain rfl : p = p' := by omega
        exact absurd rfl hne
    clear h1 hne
    induction p', hlt using Nat.le_induction with
    | base => exact .single ⟨ha, hb, Or.inl (Or.inl ⟨rfl, rfl⟩)⟩
    | succ p' hp' ih =>
      have hb' : IsBlk n nb (p', s) := ⟨hb.1, hb.2.1, by have := ha.2.2.1; simp only at this ⊢; omega, by
        have := hb.2.2.2; simp only at this ⊢; omega⟩
      exact (ih hb').tail ⟨hb', hb, Or.inl (Or.inl ⟨rfl, rfl⟩)⟩
  | succ d ih =>
    intro a b ha hb h2 h1 hne
    obtain ⟨a1, a2⟩ := a
    obtain ⟨b1, b2⟩ := b
    simp only at h1 h2
    have ha1 := ha.1
    simp only at ha1
    have hc : IsBlk n nb (min (b1 + 2) (len n nb (b2 - 1)), b2 - 1) := by
      have := len_pos n nb (b2 - 1)
      have hb2 := hb.2.1
      simp only at hb2
      exact ⟨by simp only; omega, by simp only; omega, by simp only; omega, min_le_right _ _⟩
    have hstep : BRel n nb own (min (b1 + 2) (len n nb (b2 - 1)), b2 - 1) (b1, b2) := Or.inl (Or.inr ⟨by simp only; omega, rfl⟩)
    have hlen : ∀ e s, 1 ≤ s → len n nb s ≤ len n nb (s + e) + 2 * e := by
      intro e
      induction e with
      | zero => intro s _; simp
      | succ e ih =>
        intro s hs
        have h1 := ih s hs
        have h2 := len_two hn hnb (s := s + e) (by omega)
        rw [Nat.add_assoc] at h2
        omega
    by_cases he : (a1, a2) = (min (b1 + 2) (len n nb (b2 - 1)), b2 - 1)
    · rw [he]
      exact .single ⟨hc, hb, hstep⟩
    · refine (ih ha hc (by simp only; omega) ?_ he).tail ⟨hc, hb, hstep⟩
      have h3 := ha.2.2.2
      have h4 := hlen d a2 ha1
      simp only at h3 ⊢
      rw [show a2 + d = b2 - 1 by omega] at h4
      omega

/-- **Coverage**: if blocks that share memory are ordered by the sweeps, the table, or the thread, all conflicts are ordered. -/
theorem covered (hn : 2 ≤ n) (hnb : 0 < nb)
    (hF : ∀ a b : Blk, IsBlk n nb a → IsBlk n nb b → a.2 < b.2 → b.1 + 2 * (b.2 - a.2) < a.1 → (∃ x i j, F a x i j ∧ F b x i j) →
      own a = own b ∧ tau a < tau b) :
    TCovered ((blocks n nb).map (btask n nb own F k)) := by
  intro i j t t' hij hi hj hc
  rw [List.getElem?_map, Option.map_eq_some_iff] at hi hj
  obtain ⟨a, hi, rfl⟩ := hi
  obtain ⟨b, hj, rfl⟩ := hj
  have hl := (blocks_lt hi hj).mp hij
  have ha := mem_blocks.mp (List.mem_of_getElem? hi)
  have hb := mem_blocks.mp (List.mem_of_getElem? hj)
  have hpath : Relation.TransGen (fun x y => IsBlk n nb x ∧ IsBlk n nb y ∧ BRel n nb own x y) a b := by
    by_cases hle : a.1 ≤ b.1 + 2 * (b.2 - a.2)
    · refine chain hn hnb (b.2 - a.2) ha hb ?_ hle ?_
      · rcases hl with h | ⟨h, -⟩ <;> omega
      · rintro rfl
        exact hl.irrefl hl
    · have hlt : a.2 < b.2 := by rcases hl with h | ⟨h, h'⟩ <;> omega
      obtain ⟨h1, h2⟩ := hF a b ha hb hlt (by omega) (by
        obtain ⟨x, i, j, h⟩ := hc
        rcases h with ⟨h, h' | h'⟩ | ⟨h, h'⟩ <;> exact ⟨x, i, j, h, h'⟩)
      exact .single ⟨ha, hb, Or.inr ⟨h1, h2, hlt⟩⟩
  have hidx : ∀ c, IsBlk n nb c → (blocks n nb)[(blocks n nb).idxOf c]? = some c := fun c hc => List.getElem?_idxOf (mem_blocks.mpr hc)
  have hmap : ∀ c, IsBlk n nb c → ((blocks n nb).map (btask n nb own F k))[(blocks n nb).idxOf c]? = some (btask n nb own F k c) := by
    intro c hc
    rw [List.getElem?_map, hidx c hc]
    rfl
  have h1 : Relation.TransGen (TEdge ((blocks n nb).map (btask n nb own F k))) ((blocks n nb).idxOf a) ((blocks n nb).idxOf b) := by
    refine Relation.TransGen.lift (fun c => (blocks n nb).idxOf c) ?_ _ _ hpath
    rintro x y ⟨hx, hy, hr⟩
    exact ⟨(blocks_lt (hidx x hx) (hidx y hy)).mpr hr.lex, _, _, hmap x hx, hmap y hy, hr.dep hx hy⟩
  have hinj : ∀ c m, (blocks n nb)[m]? = some c → (blocks n nb).idxOf c = m := by
    intro c m h
    obtain ⟨hm, rfl⟩ := List.getElem?_eq_some_iff.mp h
    exact blocks_nodup.idxOf_getElem m hm
  rw [hinj a i hi, hinj b j hj] at h1
  exact h1

variable {X : Type*} {loc : CM → Nat → Nat → X} {Ts : List (Task CM X α)}

/-- Number of memory accesses of a block. -/
def cntOf {K X α : Type*} (n nb : Nat) (Ts : List (Task K X α)) (b : Blk) : Nat :=
  (Ts[(blocks n nb).idxOf b]?).elim 0 fun T => T.evs.length

/-- **Every complete execution of the threads is a legal execution.** -/
theorem legal (hn : 2 ≤ n) (hnb : 0 < nb) (hI : List.Forall₂ (TaskImpl loc id) ((blocks n nb).map (btask n nb own F k)) Ts)
    {σ : St} (hr : Reach n nb ac (cntOf n nb Ts) own σ) (hd : Done σ) : Legal Ts (traceOf n nb σ.hist) := by
  have hinv := reach_inv hn hnb hr
  have hall := fun b k => hinv.all hn hnb hd (b := b) (k := k)
  have hidx : ∀ c, IsBlk n nb c → (blocks n nb)[(blocks n nb).idxOf c]? = some c := fun c hc => List.getElem?_idxOf (mem_blocks.mpr hc)
  have hT : ∀ (m : Nat) (T : Task CM X α), Ts[m]? = some T → ∃ b, IsBlk n nb b ∧ (blocks n nb).idxOf b = m ∧
      TaskImpl loc id (btask n nb own F k b) T := by
    intro m T h
    obtain ⟨t, ht, hti⟩ := forall₂_getElem? hI m T h
    rw [List.getElem?_map, Option.map_eq_some_iff] at ht
    obtain ⟨b, hb, rfl⟩ := ht
    refine ⟨b, mem_blocks.mp (List.mem_of_getElem? hb), ?_, hti⟩
    obtain ⟨hm, rfl⟩ := List.getElem?_eq_some_iff.mp hb
    exact blocks_nodup.idxOf_getElem m hm
  have hT' : ∀ b, IsBlk n nb b → ∃ T, Ts[(blocks n nb).idxOf b]? = some T := by
    intro b hb
    obtain ⟨T, h, -⟩ := forall₂_getElem?' hI ((blocks n nb).idxOf b) (btask n nb own F k b) (by
      rw [List.getElem?_map, hidx b hb]; rfl)
    exact ⟨T, h⟩
  have hin : ∀ (o : Occ) (x : Blk × Kind), o ∈ (match x.2 with | .ev k => some ((blocks n nb).idxOf x.1, k) | _ => none : Option Occ) →
      x = (x.1, .ev o.2) ∧ (blocks n nb).idxOf x.1 = o.1 := by
    rintro o ⟨b, kd⟩ h
    cases kd with
    | wait => simp at h
    | set => simp at h
    | ev i =>
      simp only [Option.mem_def, Option.some.injEq] at h
      subst h
      exact ⟨rfl, rfl⟩
  have hsame : ∀ x y : Blk × Kind, x ∈ σ.hist → y ∈ σ.hist → (blocks n nb).idxOf x.1 = (blocks n nb).idxOf y.1 → x.1 = y.1 := by
    intro x y hx _ e
    exact (List.idxOf_inj (mem_blocks.mpr (hinv.blk hn hnb (b := x.1) (k := x.2) hx).1)).mp e
  constructor
  · have h1 : (traceOf n nb σ.hist).Nodup := by
      unfold traceOf List.Nodup
      rw [List.pairwise_filterMap]
      refine List.Pairwise.imp_of_mem ?_ (hinv.nodup hn hnb)
      intro x y hx hy hne o ho o' ho' e
      subst e
      obtain ⟨e1, e2⟩ := hin o x ho
      obtain ⟨e3, e4⟩ := hin o y ho'
      have := hsame x y hx hy (e2.trans e4.symm)
      exact hne (by rw [e1, e3, this])
    have h2 : (occs Ts).Nodup := (occsFrom_pairwise Ts 0).imp (by
      intro a b h e
      subst e
      unfold occLt at h
      omega)
    refine (List.perm_ext_iff_of_nodup h1 h2).mpr fun o => ?_
    rw [mem_occs]
    unfold traceOf
    rw [List.mem_filterMap]
    constructor
    · rintro ⟨x, hx, ho⟩
      obtain ⟨e1, e2⟩ := hin o x ho
      rw [e1] at hx
      obtain ⟨h3, h4⟩ := (hall _ _).mp hx
      obtain ⟨T, hTT⟩ := hT' _ h3
      rw [mem_ev] at h4
      unfold cntOf at h4
      rw [hTT] at h4
      rw [e2] at hTT
      exact ⟨T, hTT, h4⟩
    · rintro ⟨T, hTT, hlt⟩
      obtain ⟨b, hb, e, -⟩ := hT _ _ hTT
      refine ⟨(b, .ev o.2), (hall _ _).mpr ⟨hb, mem_ev.mpr ?_⟩, ?_⟩
      · unfold cntOf
        rw [e, hTT]
        exact hlt
      · simp only [e]
  · unfold traceOf
    rw [List.pairwise_filterMap]
    refine List.Pairwise.imp_of_mem ?_ hinv.order
    intro x y hx hy hm o ho o' ho'
    obtain ⟨e1, e2⟩ := hin o x ho
    obtain ⟨e3, e4⟩ := hin o' y ho'
    have k1 : x.2 = .ev o.2 := by rw [e1]
    have k2 : y.2 = .ev o'.2 := by rw [e3]
    refine ⟨?_, ?_⟩
    · rintro ⟨h1, h2⟩
      have := hsame x y hx hy (e2.trans (h1.trans e4.symm))
      exact hm ⟨o'.2, o.2, k2, k1, Or.inl ⟨this.symm, h2⟩⟩
    · rintro ⟨hlt, T', T, hT1, hT2, hdep⟩
      obtain ⟨b', hb', e5, i1⟩ := hT _ _ hT1
      obtain ⟨b, hb, e6, i2⟩ := hT _ _ hT2
      have hxb : x.1 = b := (List.idxOf_inj (mem_blocks.mpr (hinv.blk hn hnb (b := x.1) (k := x.2) hx).1)).mp (e2.trans e6.symm)
      have hyb : y.1 = b' := (List.idxOf_inj (mem_blocks.mpr (hinv.blk hn hnb (b := y.1) (k := y.2) hy).1)).mp (e4.trans e5.symm)
      have hlex : BLex b' b := (blocks_lt (hidx b' hb') (hidx b hb)).mp (by rw [e5, e6]; exact hlt)
      have hd' : TDepOn (btask n nb own F k b') (btask n nb own F k b) := by
        rcases hdep with h | ⟨d, hd, d', hd', e, hm⟩
        · rw [i1.phase, i2.phase] at h
          exact Or.inl h
        · rw [i1.deps, List.mem_map] at hd
          rw [i2.deps, List.mem_map] at hd'
          obtain ⟨d1, hd, rfl⟩ := hd
          obtain ⟨d2, hd', rfl⟩ := hd'
          exact Or.inr ⟨d1, hd, d2, hd', e, hm⟩
      have := dep_rel hlex hd'
      rw [← hxb, ← hyb] at this
      exact hm ⟨o'.2, o.2, k2, k1, Or.inr this⟩

end

end Verif.Bulge

/-
Static scheduling of the bulge chasing (compute/pzgbbrd_static.c): which blocks there are, and in which order every thread
meets them.
-/
import Mathlib.Data.List.Range
import Mathlib.Data.List.Count
import Mathlib.Data.List.Nodup
import Mathlib.Data.Nat.Find
import Mathlib.Tactic.Ring

namespace Verif.Bulge

/-- A block: `(myid, sweepid)`, both counted from one. -/
abbrev Blk := Nat × Nat

/-- `colpt` (compute/pzgbbrd_static.c:125,130). -/
def colpt (nb : Nat) (b : Blk) : Nat :=
  if b.1 % 2 = 0 then b.1 / 2 * nb + 1 + b.2 - 1 else (b.1 + 1) / 2 * nb + 1 + b.2 - 1

/-- `stind` (compute/pzgbbrd_static.c:126,131). -/
def stind (nb : Nat) (b : Blk) : Nat := colpt nb b - nb + 1

/-- `edind` (compute/pzgbbrd_static.c:127,132). -/
def edind (n nb : Nat) (b : Blk) : Nat := min (colpt nb b) n

/-- `blklastind` (compute/pzgbbrd_static.c:128,133-136). -/
def blklastind (n nb : Nat) (b : Blk) : Nat :=
  if b.1 % 2 = 0 then colpt nb b
  else if edind n nb b - 1 ≤ stind nb b ∧ edind n nb b = n then n else 0

/-- The test for the last block of a sweep (compute/pzgbbrd_static.c:147,163,170). -/
def isLast (n nb : Nat) (b : Blk) : Bool := decide (n - 1 ≤ blklastind n nb b)

/-- Blocks met in iteration `(i, m)` when the sweeps `stt .. ed` are active; `grsiz = 1`, `stepercol = 3`
(compute/pzgbbrd_static.c:118-123). -/
def rowBlocks (i m stt ed : Nat) : List Blk :=
  (List.range' stt (ed + 1 - stt)).map fun s => ((i - s) * 3 + (m - 1) * 1 + 1, s)

/-- One iteration of the loop over `m`; `stt++` for every last block (compute/pzgbbrd_static.c:116-173). -/
def mStep (n nb i : Nat) (a : Nat × List Blk) (m : Nat) : Nat × List Blk :=
  (a.1 + (rowBlocks i m a.1 (min i (n - 1))).countP (isLast n nb), a.2 ++ rowBlocks i m a.1 (min i (n - 1)))

/-- One iteration of the loop over `i`, with its `break` (compute/pzgbbrd_static.c:113-115). -/
def iStep (n nb : Nat) (a : (Nat × List Blk) × Bool) (i : Nat) : (Nat × List Blk) × Bool :=
  if a.2 = true ∨ min i (n - 1) < a.1.1 then (a.1, true) else ([1, 2, 3].foldl (mStep n nb i) a.1, false)

/-- All blocks in the order in which every thread meets them (compute/pzgbbrd_static.c:110-176).  `thgrsiz = minmn`, so
`thgrnb` is 0 for `minmn = 1` and 1 otherwise, and `thed = minmn-1` (compute/pzgbbrd_static.c:79,97-98,111-112). -/
def enum (n nb : Nat) : List Blk :=
  if n ≤ 1 then [] else ((List.range' 1 (n - 1)).foldl (iStep n nb) ((1, []), false)).1.2

/-- Index of the iteration in which a block is met. -/
def tau (b : Blk) : Nat := 3 * (b.2 - 1) + b.1

section
variable {n nb : Nat}

/-- `q`: number of the pair of blocks. -/
theorem colpt_eq (hp : 1 ≤ b.1) (hs : 1 ≤ b.2) : colpt nb b = ((b.1 - 1) / 2 + 1) * nb + b.2 := by
  unfold colpt
  have e1 : b.1 % 2 = 0 → b.1 / 2 = (b.1 - 1) / 2 + 1 := by omega
  have e2 : ¬ b.1 % 2 = 0 → (b.1 + 1) / 2 = (b.1 - 1) / 2 + 1 := by omega
  split
  · rename_i h; rw [e1 h]; omega
  · rename_i h; rw [e2 h]; omega

theorem isLast_odd (hn : 2 ≤ n) (hnb : 0 < nb) {q s : Nat} (hs : 1 ≤ s) :
    isLast n nb (2 * q + 1, s) = true ↔ n ≤ q * nb + s + 2 ∧ n ≤ q * nb + nb + s := by
  have e : colpt nb (2 * q + 1, s) = q * nb + nb + s := by
    rw [colpt_eq (by simp) hs]
    simp only [Nat.add_sub_cancel]
    rw [show 2 * q / 2 = q by omega, Nat.add_mul, Nat.one_mul]
  unfold isLast blklastind
  rw [if_neg (by simp)]
  unfold edind stind
  rw [e, decide_eq_true_iff]
  generalize q * nb = z
  split <;> omega

theorem isLast_even (hs : 1 ≤ s) : isLast n nb (2 * q + 2, s) = true ↔ n ≤ q * nb + nb + s + 1 := by
  have e : colpt nb (2 * q + 2, s) = q * nb + nb + s := by
    rw [colpt_eq (by simp) hs]
    show ((2 * q + 2 - 1) / 2 + 1) * nb + s = _
    rw [show (2 * q + 2 - 1) / 2 = q by omega, Nat.add_mul, Nat.one_mul]
  unfold isLast blklastind
  rw [if_pos (by simp), e, decide_eq_true_iff]
  omega

theorem isLast_up (hn : 2 ≤ n) (hnb : 0 < nb) {p s : Nat} (hp : 1 ≤ p) (hs : 1 ≤ s) (h : isLast n nb (p, s) = true) :
    isLast n nb (p + 1, s) = true := by
  rcases Nat.even_or_odd' (p - 1) with ⟨q, e | e⟩
  · obtain rfl : p = 2 * q + 1 := by omega
    rw [isLast_odd hn hnb hs] at h
    rw [isLast_even hs]
    omega
  · obtain rfl : p = 2 * q + 2 := by omega
    rw [isLast_even hs] at h
    rw [show 2 * q + 2 + 1 = 2 * (q + 1) + 1 by ring, isLast_odd hn hnb hs, Nat.add_mul]
    omega

theorem isLast_mono (hn : 2 ≤ n) (hnb : 0 < nb) {p s : Nat} (hp : 1 ≤ p) (hs : 1 ≤ s) (h : isLast n nb (p, s) = true) :
    isLast n nb (p, s + 1) = true := by
  rcases Nat.even_or_odd' (p - 1) with ⟨q, e | e⟩
  · obtain rfl : p = 2 * q + 1 := by omega
    rw [isLast_odd hn hnb hs] at h
    rw [isLast_odd hn hnb (by omega)]
    omega
  · obtain rfl : p = 2 * q + 2 := by omega
    rw [isLast_even hs] at h
    rw [isLast_even (by omega)]
    omega

theorem isLast_two (hn : 2 ≤ n) (hnb : 0 < nb) {p s : Nat} (hp : 1 ≤ p) (hs : 1 ≤ s) (h : isLast n nb (p, s + 1) = true) :
    isLast n nb (p + 2, s) = true := by
  rcases Nat.even_or_odd' (p - 1) with ⟨q, e | e⟩
  · obtain rfl : p = 2 * q + 1 := by omega
    rw [isLast_odd hn hnb (by omega)] at h
    rw [show 2 * q + 1 + 2 = 2 * (q + 1) + 1 by ring, isLast_odd hn hnb hs, Nat.add_mul]
    omega
  · obtain rfl : p = 2 * q + 2 := by omega
    rw [isLast_even (by omega)] at h
    rw [show 2 * q + 2 + 2 = 2 * (q + 1) + 2 by ring, isLast_even hs, Nat.add_mul]
    omega

theorem isLast_exists (hnb : 0 < nb) {s : Nat} (hs : 1 ≤ s) : isLast n nb (2 * (n - s) + 2, s) = true := by
  rw [isLast_even hs]
  have : n - s ≤ (n - s) * nb := Nat.le_mul_of_pos_right _ hnb
  omega

/-- Some block of the sweep is its last one. -/
theorem exists_last (n nb s : Nat) : ∃ p, 1 ≤ p ∧ (isLast n nb (p, s) = true ∨ nb = 0 ∨ s = 0) := by
  by_cases h : nb = 0 ∨ s = 0
  · exact ⟨1, le_rfl, Or.inr h⟩
  · exact ⟨2 * (n - s) + 2, by omega, Or.inl (isLast_exists (by omega) (by omega))⟩

/-- Number of blocks of a sweep. -/
def len (n nb s : Nat) : Nat := Nat.find (exists_last n nb s)

theorem len_pos (n nb s : Nat) : 1 ≤ len n nb s := (Nat.find_spec (exists_last n nb s)).1

theorem len_last (hnb : 0 < nb) {s : Nat} (hs : 1 ≤ s) : isLast n nb (len n nb s, s) = true := by
  rcases (Nat.find_spec (exists_last n nb s)).2 with h | h
  · exact h
  · omega

theorem last_iff (hn : 2 ≤ n) (hnb : 0 < nb) {p s : Nat} (hp : 1 ≤ p) (hs : 1 ≤ s) :
    isLast n nb (p, s) = true ↔ len n nb s ≤ p := by
  constructor
  · intro h
    exact Nat.find_min' _ ⟨hp, Or.inl h⟩
  · intro h
    induction p, h using Nat.le_induction with
    | base => exact len_last hnb hs
    | succ p h ih =>
      have := len_pos n nb s
      exact isLast_up hn hnb (by omega) hs (ih (by omega))

theorem len_mono (hn : 2 ≤ n) (hnb : 0 < nb) {s : Nat} (hs : 1 ≤ s) : len n nb (s + 1) ≤ len n nb s := by
  have := len_pos n nb s
  rw [← last_iff hn hnb this (by omega)]
  exact isLast_mono hn hnb this hs (len_last hnb hs)

theorem len_two (hn : 2 ≤ n) (hnb : 0 < nb) {s : Nat} (hs : 1 ≤ s) : len n nb s ≤ len n nb (s + 1) + 2 := by
  have := len_pos n nb (s + 1)
  rw [← last_iff hn hnb (by omega) hs]
  exact isLast_two hn hnb this hs (len_last hnb (by omega))

theorem len_anti (hn : 2 ≤ n) (hnb : 0 < nb) {s s' : Nat} (hs : 1 ≤ s) (h : s ≤ s') : len n nb s' ≤ len n nb s := by
  induction s', h using Nat.le_induction with
  | base => exact le_rfl
  | succ k h ih => exact (len_mono hn hnb (by omega)).trans ih

theorem len_end (hn : 2 ≤ n) (hnb : 0 < nb) {s : Nat} (hs : 1 ≤ s) (hsn : s < n) : len n nb s ≤ 2 * (n - s) := by
  rw [← last_iff hn hnb (by omega) hs, show 2 * (n - s) = 2 * (n - s - 1) + 2 by omega, isLast_even hs]
  have : n - s - 1 ≤ (n - s - 1) * nb := Nat.le_mul_of_pos_right _ hnb
  omega

/-- The blocks of the bulge chasing. -/
def IsBlk (n nb : Nat) (b : Blk) : Prop := 1 ≤ b.2 ∧ b.2 < n ∧ 1 ≤ b.1 ∧ b.1 ≤ len n nb b.2

/-- Iteration in which a sweep ends. -/
def fin (n nb s : Nat) : Nat := 3 * (s - 1) + len n nb s

theorem fin_lt (hn : 2 ≤ n) (hnb : 0 < nb) {s s' : Nat} (hs : 1 ≤ s) (h : s < s') : fin n nb s < fin n nb s' := by
  induction s', h using Nat.le_induction with
  | base =>
    have := len_two hn hnb hs
    show 3 * (s - 1) + len n nb s < 3 * (s + 1 - 1) + len n nb (s + 1)
    omega
  | succ k h ih =>
    refine ih.trans ?_
    have := len_two hn hnb (s := k) (by omega)
    show 3 * (k - 1) + len n nb k < 3 * (k + 1 - 1) + len n nb (k + 1)
    omega

/-- What is known after iteration `t`. -/
structure EnumInv (n nb t : Nat) (a : Nat × List Blk) : Prop where
  lo : 1 ≤ a.1
  hi : a.1 ≤ n
  before : ∀ s, 1 ≤ s → s < a.1 → fin n nb s ≤ t
  after : a.1 < n → t < fin n nb a.1
  mem : ∀ b, b ∈ a.2 ↔ IsBlk n nb b ∧ tau b ≤ t
  sorted : a.2.Pairwise fun b b' => tau b ≤ tau b' ∧ b ≠ b'

theorem mStep_inv (hn : 2 ≤ n) (hnb : 0 < nb) {i m t : Nat} (hi : 1 ≤ i) (hm : 1 ≤ m) (hm3 : m ≤ 3) (hin : i < n)
    {a : Nat × List Blk} (ht : t + 1 = 3 * (i - 1) + m) (h : EnumInv n nb t a) : EnumInv n nb (t + 1) (mStep n nb i a m) := by
  obtain ⟨stt, out⟩ := a
  obtain ⟨h1, h2, h3, h4, h5, h6⟩ := h
  simp only at h1 h2 h3 h4 h5 h6
  have hed : min i (n - 1) = i := by omega
  have hrow : ∀ b, b ∈ rowBlocks i m stt i ↔ IsBlk n nb b ∧ tau b = t + 1 := by
    rintro ⟨p, s⟩
    unfold rowBlocks
    simp only [List.mem_map, List.mem_range'_1, Prod.mk.injEq]
    constructor
    · rintro ⟨s', ⟨hs1, hs2⟩, rfl, rfl⟩
      have hf : t < fin n nb s' := by
        rcases Nat.lt_or_ge stt s' with h | h
        · exact (h4 (by omega)).trans (fin_lt hn hnb h1 h)
        · obtain rfl : s' = stt := by omega
          exact h4 (by omega)
      unfold fin at hf
      refine ⟨⟨by omega, by omega, by omega, ?_⟩, ?_⟩
      · show (i - s') * 3 + (m - 1) * 1 + 1 ≤ len n nb s'
        omega
      · show 3 * (s' - 1) + ((i - s') * 3 + (m - 1) * 1 + 1) = _
        omega
    · rintro ⟨⟨k1, k2, k3, k4⟩, k5⟩
      simp only [tau] at k1 k2 k3 k4 k5
      refine ⟨s, ⟨?_, by omega⟩, by omega, rfl⟩
      by_contra hlt
      have := h3 s k1 (by omega)
      unfold fin at this
      omega
  have hlen : ∀ b ∈ rowBlocks i m stt i, (isLast n nb b = true ↔ fin n nb b.2 = t + 1) := by
    rintro ⟨p, s⟩ hb
    obtain ⟨⟨k1, k2, k3, k4⟩, k5⟩ := (hrow _).mp hb
    simp only [tau] at k1 k2 k3 k4 k5
    rw [last_iff hn hnb k3 k1]
    unfold fin
    show _ ↔ 3 * (s - 1) + len n nb s = t + 1
    omega
  have hcount : (rowBlocks i m stt i).countP (isLast n nb) = if stt < n ∧ fin n nb stt = t + 1 then 1 else 0 := by
    by_cases hc : stt ≤ i
    · obtain ⟨k, hk⟩ : ∃ k, i + 1 - stt = k + 1 := ⟨i - stt, by omega⟩
      have e : rowBlocks i m stt i = ((i - stt) * 3 + (m - 1) * 1 + 1, stt) ::
          (List.range' (stt + 1) k).map fun s => ((i - s) * 3 + (m - 1) * 1 + 1, s) := by
        unfold rowBlocks
        rw [hk, List.range'_succ, List.map_cons]
      have hmem : ((i - stt) * 3 + (m - 1) * 1 + 1, stt) ∈ rowBlocks i m stt i := by rw [e]; exact List.mem_cons_self ..
      have hz : ((List.range' (stt + 1) k).map fun s => ((i - s) * 3 + (m - 1) * 1 + 1, s)).countP (isLast n nb) = 0 := by
        rw [List.countP_eq_zero]
        intro b hb
        have hb' : b ∈ rowBlocks i m stt i := by rw [e]; exact List.mem_cons_of_mem _ hb
        rw [hlen b hb']
        obtain ⟨s, hs, rfl⟩ := List.mem_map.mp hb
        rw [List.mem_range'_1] at hs
        show fin n nb s ≠ _
        have := fin_lt hn hnb h1 (show stt < s by omega)
        have := h4 (by omega)
        omega
      rw [e, List.countP_cons, hz]
      have := hlen _ hmem
      simp only at this
      by_cases g : fin n nb stt = t + 1
      · rw [if_pos (this.mpr g), if_pos ⟨by omega, g⟩]
      · rw [if_neg (fun h => g (this.mp h)), if_neg (fun h => g h.2)]
    · have e : rowBlocks i m stt i = [] := by
        unfold rowBlocks
        rw [show i + 1 - stt = 0 by omega]; rfl
      rw [e, if_neg]
      · rfl
      · rintro ⟨h, h'⟩
        unfold fin at h'
        have := len_pos n nb stt
        omega
  have hm' : mStep n nb i (stt, out) m = (stt + (if stt < n ∧ fin n nb stt = t + 1 then 1 else 0), out ++ rowBlocks i m stt i) := by
    unfold mStep
    simp only [hed, hcount]
  rw [hm']
  refine ⟨?_, ?_, ?_, ?_, ?_, ?_⟩
  · show 1 ≤ stt + _; omega
  · show stt + _ ≤ n
    split <;> omega
  · intro s hs hs'
    simp only at hs'
    split at hs'
    · rename_i hc
      rcases Nat.lt_or_ge s stt with h | h
      · exact (h3 s hs h).trans (by omega)
      · obtain rfl : s = stt := by omega
        omega
    · exact (h3 s hs (by omega)).trans (by omega)
  · intro hlt
    simp only at hlt ⊢
    split
    · rename_i hc
      rw [if_pos hc] at hlt
      have := fin_lt hn hnb h1 (show stt < stt + 1 by omega)
      rw [hc.2] at this
      exact this
    · rename_i hc
      rw [if_neg hc] at hlt
      have := h4 (by omega)
      have : ¬ fin n nb stt = t + 1 := fun h => hc ⟨by omega, h⟩
      have h9 : t + 1 < fin n nb stt := by omega
      exact h9
  · intro b
    show b ∈ out ++ rowBlocks i m stt i ↔ _
    rw [List.mem_append, h5, hrow]
    constructor
    · rintro (⟨k, k'⟩ | ⟨k, k'⟩)
      · exact ⟨k, by omega⟩
      · exact ⟨k, by omega⟩
    · rintro ⟨k, k'⟩
      rcases Nat.lt_or_ge t (tau b) with h | h
      · exact Or.inr ⟨k, by omega⟩
      · exact Or.inl ⟨k, h⟩
  · show (out ++ rowBlocks i m stt i).Pairwise _
    rw [List.pairwise_append]
    refine ⟨h6, ?_, ?_⟩
    · have hnd : (rowBlocks i m stt i).Nodup := by
        unfold rowBlocks
        refine (List.nodup_map_iff ?_).mpr (List.nodup_range' ..)
        intro s s' e
        exact congrArg Prod.snd e
      refine List.Pairwise.imp_of_mem ?_ hnd
      intro b b' hb hb' hne
      exact ⟨by rw [((hrow b).mp hb).2, ((hrow b').mp hb').2], hne⟩
    · intro b hb b' hb'
      have e1 := ((h5 b).mp hb).2
      have e2 := ((hrow b').mp hb').2
      refine ⟨by omega, ?_⟩
      rintro rfl
      omega

/-- What every thread enumerates: all blocks, iteration by iteration. -/
theorem enum_spec (hn : 2 ≤ n) (hnb : 0 < nb) :
    (∀ b, b ∈ enum n nb ↔ IsBlk n nb b) ∧ (enum n nb).Pairwise fun b b' => tau b ≤ tau b' ∧ b ≠ b' := by
  have key : ∀ k, k ≤ n - 1 → EnumInv n nb (3 * k) ((List.range' 1 k).foldl (iStep n nb) ((1, []), false)).1 ∧
      (((List.range' 1 k).foldl (iStep n nb) ((1, []), false)).2 = true →
        n ≤ ((List.range' 1 k).foldl (iStep n nb) ((1, []), false)).1.1) := by
    intro k
    induction k with
    | zero =>
      intro _
      refine ⟨⟨le_rfl, by show 1 ≤ n; omega, ?_, ?_, ?_, List.Pairwise.nil⟩, fun h => by cases h⟩
      · intro s h1 h2
        have h2 : s < 1 := h2
        omega
      · intro _
        have := len_pos n nb 1
        show 0 < fin n nb 1
        unfold fin
        omega
      · intro b
        show b ∈ [] ↔ _
        refine ⟨fun h => absurd h List.not_mem_nil, ?_⟩
        rintro ⟨⟨h1, h2, h3, h4⟩, h5⟩
        unfold tau at h5
        omega
    | succ k ih =>
      intro hk
      obtain ⟨hI, hstop⟩ := ih (by omega)
      rw [List.range'_concat, List.foldl_append]
      simp only [List.foldl_cons, List.foldl_nil, Nat.one_mul]
      generalize (List.range' 1 k).foldl (iStep n nb) ((1, []), false) = a at hI hstop
      obtain ⟨a, stop⟩ := a
      simp only at hI hstop
      unfold iStep
      have hed : min (1 + k) (n - 1) = 1 + k := by omega
      split
      · rename_i hc
        have hfull : n ≤ a.1 := by
          rcases hc with hc | hc
          · exact hstop hc
          · rw [hed] at hc
            have hc : 1 + k < a.1 := hc
            exfalso
            have := hI.before (k + 1) (by omega) (by omega)
            have h2 := len_pos n nb (k + 1)
            unfold fin at this
            omega
        refine ⟨⟨hI.lo, hI.hi, fun s h1 h2 => (hI.before s h1 h2).trans (by omega), fun h => by
          have h : a.1 < n := h
          omega, ?_, hI.sorted⟩, fun _ => hfull⟩
        intro b
        rw [hI.mem]
        refine and_congr_right fun hb => ?_
        obtain ⟨h1, h2, h3, h4⟩ := hb
        have := hI.before b.2 h1 (by omega)
        unfold fin at this
        unfold tau
        omega
      · rename_i hc
        refine ⟨?_, fun h => by cases h⟩
        simp only [List.foldl_cons, List.foldl_nil]
        have s1 := mStep_inv hn hnb (i := 1 + k) (m := 1) (t := 3 * k) (by omega) (by omega) (by omega) (by omega) (by omega) hI
        have s2 := mStep_inv hn hnb (i := 1 + k) (m := 2) (t := 3 * k + 1) (by omega) (by omega) (by omega) (by omega) (by omega) s1
        exact mStep_inv hn hnb (i := 1 + k) (m := 3) (t := 3 * k + 2) (by omega) (by omega) (by omega) (by omega) (by omega) s2
  obtain ⟨h, -⟩ := key (n - 1) le_rfl
  unfold enum
  rw [if_neg (by omega)]
  refine ⟨fun b => ?_, h.sorted⟩
  rw [h.mem]
  refine and_iff_left_of_imp ?_
  rintro ⟨h1, h2, h3, h4⟩
  have := len_end hn hnb h1 h2
  unfold tau
  omega

end

end Verif.Bulge

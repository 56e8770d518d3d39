/-
Elimination orders of the tree QR and LQ factorizations: control/tree.c, include/plasma_tree.h.
-/
import Mathlib.Tactic.Linarith
import Mathlib.Algebra.BigOperators.Intervals
import Mathlib.Algebra.Order.BigOperators.Group.Finset
import Mathlib.Algebra.BigOperators.Ring.Finset

namespace Verif.Tree

/-- An operation of the list, `(kernel, col, row, rowpiv)` (include/plasma_tree.h:33-49): `ge j k` triangularizes
tile `(k, j)`, `ts j m k` annihilates the full tile `(m, j)` by means of row `k`, `tt j m k` annihilates the triangular
tile `(m, j)` by means of row `k`. -/
inductive Op where
  | ge (j k : Nat)
  | ts (j m k : Nat)
  | tt (j m k : Nat)
  deriving DecidableEq, Repr

/-- Column of an operation. -/
def Op.col : Op → Nat
  | .ge j _ => j
  | .ts j _ _ => j
  | .tt j _ _ => j

/-- `get_super_tiles` (control/tree.c:48-50). -/
def gst (n bs : Nat) : Nat := (n + (bs - 1)) / bs

/-- `plasma_tree_insert_flat_tree` (control/tree.c:52-69): the operations that it appends. -/
def flatTree (j k bs : Nat) : List Op :=
  .ge j k :: (List.range' (k + 1) (bs - 1)).map fun m => .ts j m k

/-- Local variables of `plasma_tree_block_greedy`: the counters `NT`, `NZ`, the list written so far, the flag
`updated`. -/
structure St where
  NT : Nat → Nat
  NZ : Nat → Nat
  ops : List Op
  upd : Bool

/-- `nTnew` (control/tree.c:609-630). -/
def newT (mt bs : Nat) (st : St) (j : Nat) : Nat :=
  if j = 0 then st.NT j + (gst mt bs - st.NT j)
  else if (mt - (j - 1)) % bs ≠ 1 ∧ bs > 1 ∧ st.NT (j - 1) > st.NZ (j - 1) then st.NZ (j - 1) + 1
  else st.NZ (j - 1)

/-- Flat trees inserted in a column (control/tree.c:609-641).  The loop of the first column runs downwards over
`k`, which here is `gst mt bs - 1 - k`. -/
def flats (mt bs : Nat) (st : St) (j : Nat) : List Op :=
  if j = 0 then
    if gst mt bs - st.NT j > 0 then
      (List.range (gst mt bs)).flatMap fun k =>
        flatTree j (j + (gst mt bs - 1 - k) * bs) (min bs (mt - (j + (gst mt bs - 1 - k) * bs)))
    else []
  else (List.range' (st.NT j) (newT mt bs st j - st.NT j)).flatMap fun k =>
    flatTree j (j + (gst (mt - j) bs - k - 1) * bs) (min bs (mt - (j + (gst (mt - j) bs - k - 1) * bs)))

/-- `batch` (control/tree.c:644). -/
def batch (st : St) (j : Nat) : Nat := (st.NT j - st.NZ j) / 2

/-- Eliminations in a column (control/tree.c:646-660). -/
def elims (mt bs : Nat) (st : St) (j : Nat) : List Op :=
  (List.range' (st.NZ j) (batch st j)).map fun kk =>
    .tt j (j + (gst (mt - j) bs - kk - 1) * bs) (j + (gst (mt - j) bs - kk - 1 - batch st j) * bs)

/-- Body of the loop over the columns (control/tree.c:609-667).  Row numbers are natural numbers; that no subtraction
is truncated is part of the proof. -/
def colStep (mt bs : Nat) (st : St) (j : Nat) : St where
  NT := fun i => if i = j then newT mt bs st j else st.NT i
  NZ := fun i => if i = j then st.NZ j + batch st j else st.NZ i
  ops := st.ops ++ flats mt bs st j ++ elims mt bs st j
  upd := st.upd || decide (newT mt bs st j ≠ st.NT j ∨ st.NZ j + batch st j ≠ st.NZ j)

/-- The loop over the columns, downwards (control/tree.c:608-668). -/
def sweep (mt bs : Nat) : Nat → St → St
  | 0, st => st
  | j + 1, st => sweep mt bs j (colStep mt bs st j)

/-- Condition of the outer loop (control/tree.c:605-606), for `minnt > 0`. -/
def busy (mt minnt bs : Nat) (st : St) : Prop :=
  st.NT (minnt - 1) < gst (mt - minnt + 1) bs ∨ st.NZ (minnt - 1) + 1 < gst (mt - minnt + 1) bs

instance (mt minnt bs : Nat) (st : St) : Decidable (busy mt minnt bs st) := by unfold busy; infer_instance

/-- Outcome of the generator: the list, the message "no column updated", or not finished within the given number
of iterations. -/
inductive Out where
  | done (ops : List Op)
  | stuck
  | unfinished

/-- The outer loop (control/tree.c:605-674), at most the given number of iterations. -/
def loop (mt minnt bs : Nat) : Nat → St → Out
  | 0, st => if busy mt minnt bs st then .unfinished else .done st.ops
  | f + 1, st =>
    if busy mt minnt bs st then
      let st' := sweep mt bs minnt { st with upd := false }
      if st'.upd then loop mt minnt bs f st' else .stuck
    else .done st.ops

/-- Block size (control/tree.c:559-561). -/
def blockSize (mt minnt conc : Nat) : Nat :=
  min mt (max 1 (mt * (minnt * minnt / 2 + minnt / 2) / (4 * conc)))

/-- `plasma_tree_operations` with its constant `tree_type` (control/tree.c:76-126), that is
`plasma_tree_block_greedy` (control/tree.c:539-688), for `mt, nt, conc ≥ 1`, where `conc` is the number of threads. -/
def treeOps (f mt nt conc : Nat) : Out :=
  loop mt (min mt nt) (blockSize mt (min mt nt) conc) f ⟨fun _ => 0, fun _ => 0, [], false⟩

/-- `loperations` (control/tree.c:565-571). -/
def loperations (mt nt : Nat) : Nat :=
  (mt * min mt nt - min mt nt * (min mt nt - 1) / 2) + (mt * min mt nt - (min mt nt + 1) * min mt nt / 2)

/-! ### Meaning of a list of operations -/

/-- State of a tile during the factorization. -/
inductive Ts where
  | full
  | tri
  | zero
  deriving DecidableEq, Repr

/-- State of all tiles: row, column. -/
abbrev TSt := Nat → Nat → Ts

/-- An operation is applicable: its rows have been annihilated in all earlier columns, the annihilating row is
triangular in the column, the other tile is full (ge, ts) or triangular (tt). -/
def Op.ok (mt : Nat) (s : TSt) : Op → Prop
  | .ge j k => j ≤ k ∧ k < mt ∧ (∀ c, c < j → s k c = .zero) ∧ s k j = .full
  | .ts j m k => j ≤ k ∧ k < m ∧ m < mt ∧ (∀ c, c < j → s k c = .zero ∧ s m c = .zero) ∧ s k j = .tri ∧ s m j = .full
  | .tt j m k => j ≤ k ∧ k < m ∧ m < mt ∧ (∀ c, c < j → s k c = .zero ∧ s m c = .zero) ∧ s k j = .tri ∧ s m j = .tri

/-- Change of one tile. -/
def TSt.set (s : TSt) (r c : Nat) (v : Ts) : TSt := fun i j => if i = r ∧ j = c then v else s i j

/-- Effect of an operation. -/
def Op.run (s : TSt) : Op → TSt
  | .ge j k => s.set k j .tri
  | .ts j m _ => s.set m j .zero
  | .tt j m _ => s.set m j .zero

/-- Effect of a list. -/
def runOps (s : TSt) (l : List Op) : TSt := l.foldl Op.run s

/-- All operations of a list are applicable when their turn comes. -/
def LegalOps (mt : Nat) : TSt → List Op → Prop
  | _, [] => True
  | s, o :: l => o.ok mt s ∧ LegalOps mt (o.run s) l

/-- All tiles are full. -/
def init : TSt := fun _ _ => .full

theorem runOps_append (s : TSt) (l₁ l₂ : List Op) : runOps s (l₁ ++ l₂) = runOps (runOps s l₁) l₂ :=
  List.foldl_append ..

theorem legal_append {mt : Nat} {s : TSt} {l₁ l₂ : List Op} :
    LegalOps mt s (l₁ ++ l₂) ↔ LegalOps mt s l₁ ∧ LegalOps mt (runOps s l₁) l₂ := by
  induction l₁ generalizing s with
  | nil => simp [LegalOps, runOps]
  | cons o l ih =>
    simp only [List.cons_append, LegalOps, ih, and_assoc]
    rfl

/-- Rows started in a column are annihilated in the columns before. -/
def RowInv (s : TSt) : Prop := ∀ r j, s r j ≠ .full → ∀ c, c < j → s r c = .zero

theorem rowInv_init : RowInv init := fun _ _ h => absurd rfl h

theorem rowInv_set {s : TSt} (h : RowInv s) {r j : Nat} {v : Ts} (hz : ∀ c, c < j → s r c = .zero)
    (hn : s r j ≠ .zero) : RowInv (s.set r j v) := by
  intro r' j' hne c hc
  unfold TSt.set at hne ⊢
  by_cases h1 : r' = r ∧ c = j
  · obtain ⟨rfl, rfl⟩ := h1
    rw [if_neg (by omega)] at hne
    exact absurd (h r' j' hne c hc) hn
  · rw [if_neg h1]
    by_cases h2 : r' = r ∧ j' = j
    · obtain ⟨rfl, rfl⟩ := h2
      exact hz c hc
    · rw [if_neg h2] at hne
      exact h r' j' hne c hc

theorem rowInv_run {mt : Nat} {s : TSt} (h : RowInv s) {o : Op} (ho : o.ok mt s) : RowInv (o.run s) := by
  cases o with
  | ge j k => exact rowInv_set h ho.2.2.1 (by rw [ho.2.2.2]; decide)
  | ts j m k => exact rowInv_set h (fun c hc => (ho.2.2.2.1 c hc).2) (by rw [ho.2.2.2.2.2]; decide)
  | tt j m k => exact rowInv_set h (fun c hc => (ho.2.2.2.1 c hc).2) (by rw [ho.2.2.2.2.2]; decide)

theorem rowInv_runOps {mt : Nat} {s : TSt} (h : RowInv s) {l : List Op} (hl : LegalOps mt s l) :
    RowInv (runOps s l) := by
  induction l generalizing s with
  | nil => exact h
  | cons o l ih => exact ih (rowInv_run h hl.1) hl.2

/-! ### The states described by the counters -/

/-- State of row `r` of column `j` if the last `T` of the `gst (mt - j) bs` groups of rows have been reduced to their
first row, and of these the last `Z` have been annihilated. -/
def colSt (mt bs j T Z r : Nat) : Ts :=
  if r < j then .full
  else if (r - j) / bs + T < gst (mt - j) bs then .full
  else if (r - j) % bs ≠ 0 then .zero
  else if (r - j) / bs + Z < gst (mt - j) bs then .tri
  else .zero

/-- The tiles are in the state described by the counters. -/
structure Match (mt bs minnt : Nat) (NT NZ : Nat → Nat) (s : TSt) : Prop where
  col : ∀ j r, j < minnt → r < mt → s r j = colSt mt bs j (NT j) (NZ j) r
  out : ∀ j r, minnt ≤ j → s r j = .full
  inv : RowInv s

theorem gst_pos {n bs : Nat} (hb : 0 < bs) (hn : 0 < n) : 0 < gst n bs :=
  Nat.div_pos (by omega) hb

/-- Group of the last row. -/
theorem lt_gst {n bs q : Nat} (hb : 0 < bs) : q < gst n bs ↔ q * bs < n := by
  unfold gst
  rw [Nat.lt_iff_add_one_le, Nat.le_div_iff_mul_le hb, Nat.add_mul]
  omega

theorem gst_le {n bs : Nat} (hb : 0 < bs) : gst n bs ≤ n := by
  by_contra h
  have := (lt_gst (n := n) (q := n) hb).mp (by omega)
  nlinarith

/-- Number of groups of consecutive columns. -/
theorem gst_succ {n bs : Nat} (hb : 0 < bs) :
    gst (n + 1) bs = gst n bs + if n % bs = 0 then 1 else 0 := by
  have e := Nat.div_add_mod n bs
  have hm := Nat.mod_lt n hb
  apply Nat.le_antisymm
  · by_contra h
    have h1 := (lt_gst (n := n + 1) hb).mp (Nat.lt_of_not_le h)
    have h2 : ¬ gst n bs < gst n bs := lt_irrefl _
    rw [lt_gst hb] at h2
    split at h1
    · rw [Nat.add_mul] at h1; omega
    · next h3 =>
      rw [Nat.add_zero] at h1
      have : gst n bs * bs = n := by omega
      exact h3 (by rw [← this]; exact Nat.mul_mod_left ..)
  · by_contra h
    have h1 : ¬ gst (n + 1) bs < gst (n + 1) bs := lt_irrefl _
    rw [lt_gst hb] at h1
    split at h
    · next h3 =>
      have h4 : gst (n + 1) bs ≤ gst n bs := by omega
      have h5 : n / bs < gst (n + 1) bs := by rw [lt_gst hb]; rw [Nat.mul_comm]; omega
      have h6 : n / bs < gst n bs := by omega
      rw [lt_gst hb, Nat.mul_comm] at h6
      omega
    · have h4 : gst (n + 1) bs < gst n bs := by omega
      rw [lt_gst hb] at h4
      omega

section
variable {mt bs minnt : Nat} {NT NZ : Nat → Nat} {s : TSt}

/-- First row of a group, counted from below. -/
theorem group_row {j k : Nat} (hb : 0 < bs) (hk : k < gst (mt - j) bs) :
    j + (gst (mt - j) bs - k - 1) * bs < mt := by
  have := (lt_gst (n := mt - j) (q := gst (mt - j) bs - k - 1) hb).mp (by omega)
  omega

/-- A flat tree: the group of rows `r0, …, r0+sz-1` is full before and reduced to its first row afterwards. -/
theorem flat_legal {j r0 sz : Nat} (hsz : 0 < sz) (hj : j ≤ r0) (hm : r0 + sz ≤ mt)
    (hz : ∀ i, i < sz → ∀ c, c < j → s (r0 + i) c = .zero) (hf : ∀ i, i < sz → s (r0 + i) j = .full) :
    LegalOps mt s (flatTree j r0 sz) ∧ ∀ r c, runOps s (flatTree j r0 sz) r c =
      if c = j ∧ r0 ≤ r ∧ r < r0 + sz then (if r = r0 then .tri else .zero) else s r c := by
  have key : ∀ d, d + 1 ≤ sz → LegalOps mt s (flatTree j r0 (d + 1)) ∧ ∀ r c, runOps s (flatTree j r0 (d + 1)) r c =
      if c = j ∧ r0 ≤ r ∧ r < r0 + (d + 1) then (if r = r0 then .tri else .zero) else s r c := by
    intro d
    induction d with
    | zero =>
      intro _
      refine ⟨⟨⟨hj, by omega, hz 0 hsz, hf 0 hsz⟩, trivial⟩, fun r c => ?_⟩
      show (s.set r0 j .tri) r c = _
      unfold TSt.set
      by_cases h : r = r0 ∧ c = j
      · rw [if_pos h, if_pos (by omega), if_pos h.1]
      · rw [if_neg h, if_neg (by omega)]
    | succ d ih =>
      intro hd
      obtain ⟨h1, h2⟩ := ih (by omega)
      have e : flatTree j r0 (d + 1 + 1) = flatTree j r0 (d + 1) ++ [.ts j (r0 + (d + 1)) r0] := by
        unfold flatTree
        rw [Nat.add_sub_cancel, Nat.add_sub_cancel, List.range'_concat]
        simp only [List.map_append, List.map_cons, List.map_nil, List.cons_append, Nat.one_mul]
        rw [show r0 + 1 + d = r0 + (d + 1) by omega]
      rw [e, legal_append, runOps_append]
      have h3 : ∀ c, c ≠ j → ∀ r, runOps s (flatTree j r0 (d + 1)) r c = s r c := by
        intro c hc r
        rw [h2, if_neg (by omega)]
      refine ⟨⟨h1, ⟨hj, by omega, by omega, fun c hc => ?_, ?_, ?_⟩, trivial⟩, fun r c => ?_⟩
      · rw [h3 c (by omega), h3 c (by omega)]
        exact ⟨hz 0 hsz c hc, hz _ (by omega) c hc⟩
      · rw [h2, if_pos (by omega), if_pos rfl]
      · rw [h2, if_neg (by omega)]
        exact hf _ (by omega)
      · show ((runOps s (flatTree j r0 (d + 1))).set (r0 + (d + 1)) j .zero) r c = _
        unfold TSt.set
        by_cases h : r = r0 + (d + 1) ∧ c = j
        · rw [if_pos h, if_pos (show c = j ∧ r0 ≤ r ∧ r < r0 + (d + 1 + 1) by omega), if_neg (by omega)]
        · rw [if_neg h, h2]
          by_cases h' : c = j ∧ r0 ≤ r ∧ r < r0 + (d + 1)
          · rw [if_pos h', if_pos (show c = j ∧ r0 ≤ r ∧ r < r0 + (d + 1 + 1) by omega)]
          · rw [if_neg h', if_neg (by omega)]
  obtain ⟨d, rfl⟩ : ∃ d, sz = d + 1 := ⟨sz - 1, by omega⟩
  exact key d le_rfl

/-- Rows of a group. -/
theorem group_iff {j k r : Nat} (hb : 0 < bs) (hk : k < gst (mt - j) bs) (hr : r < mt) :
    (j + (gst (mt - j) bs - k - 1) * bs ≤ r ∧
      r < j + (gst (mt - j) bs - k - 1) * bs + min bs (mt - (j + (gst (mt - j) bs - k - 1) * bs))) ↔
    j ≤ r ∧ (r - j) / bs + k + 1 = gst (mt - j) bs := by
  have h0 := group_row hb hk
  set q := gst (mt - j) bs - k - 1 with hq
  have e : ((r - j) / bs + k + 1 = gst (mt - j) bs) ↔ (r - j) / bs = q := by omega
  rw [e, Nat.div_eq_iff hb]
  constructor
  · rintro ⟨h1, h2⟩
    have : min bs (mt - (j + q * bs)) ≤ bs := Nat.min_le_left ..
    refine ⟨by omega, ?_, ?_⟩ <;> omega
  · rintro ⟨h1, h2, h3⟩
    refine ⟨by omega, ?_⟩
    rcases Nat.le_total bs (mt - (j + q * bs)) with h | h
    · rw [Nat.min_eq_left h]; omega
    · rw [Nat.min_eq_right h]; omega

/-- One flat tree. -/
theorem flat_step (hb : 0 < bs) (h : Match mt bs minnt NT NZ s) {j k : Nat} (hj : j < minnt) (hT : NT j = k)
    (hZ : NZ j ≤ k) (hk : k < gst (mt - j) bs)
    (hz : ∀ r, r < mt → j ≤ r → (r - j) / bs + k + 1 = gst (mt - j) bs → ∀ c, c < j → s r c = .zero) :
    let l := flatTree j (j + (gst (mt - j) bs - k - 1) * bs) (min bs (mt - (j + (gst (mt - j) bs - k - 1) * bs)))
    LegalOps mt s l ∧ Match mt bs minnt (fun i => if i = j then k + 1 else NT i) NZ (runOps s l) := by
  intro l
  have h0 := group_row hb hk
  have hgr := fun r (hr : r < mt) => group_iff (r := r) hb hk hr
  set r0 := j + (gst (mt - j) bs - k - 1) * bs with hr0
  set sz := min bs (mt - r0) with hsz
  have hsz0 : 0 < sz := by omega
  have hle : r0 + sz ≤ mt := by omega
  have hin : ∀ i, i < sz → j ≤ r0 + i ∧ (r0 + i - j) / bs + k + 1 = gst (mt - j) bs := fun i hi =>
    (hgr (r0 + i) (by omega)).mp ⟨by omega, by omega⟩
  obtain ⟨h1, h2⟩ := flat_legal (s := s) (mt := mt) (j := j) hsz0 (by omega) hle
    (fun i hi c hc => hz (r0 + i) (by omega) (hin i hi).1 (hin i hi).2 c hc) (fun i hi => by
      rw [h.col j _ hj (by omega)]
      unfold colSt
      have := hin i hi
      rw [if_neg (by omega), if_pos (by omega)])
  refine ⟨h1, fun c r hc hr => ?_, fun c r hc => ?_, rowInv_runOps h.inv h1⟩
  · rw [h2]
    by_cases hcj : c = j
    · subst hcj
      rw [if_pos rfl]
      have hgr' := hgr r hr
      by_cases hg : r0 ≤ r ∧ r < r0 + sz
      · rw [if_pos ⟨rfl, hg⟩]
        have h3 := hgr'.mp hg
        unfold colSt
        rw [if_neg (show ¬ r < c by omega), if_neg (show ¬ (r - c) / bs + (k + 1) < gst (mt - c) bs by omega)]
        have hdm := Nat.div_add_mod (r - c) bs
        have hq : (r - c) / bs = gst (mt - c) bs - k - 1 := by omega
        by_cases hrr : r = r0
        · have : (r - c) % bs = 0 := by
            rw [hrr, hr0, Nat.add_sub_cancel_left]; exact Nat.mul_mod_left ..
          rw [if_pos hrr, if_neg (by omega), if_pos (by omega)]
        · have : (r - c) % bs ≠ 0 := by
            intro h0'
            rw [hq, h0', Nat.mul_comm] at hdm
            omega
          rw [if_neg hrr, if_pos this]
      · rw [if_neg (by tauto), h.col c r hc hr, hT]
        unfold colSt
        by_cases h4 : r < c
        · rw [if_pos h4, if_pos h4]
        · have h5 : ¬ (r - c) / bs + k + 1 = gst (mt - c) bs := fun e => hg (hgr'.mpr ⟨by omega, e⟩)
          rw [if_neg h4, if_neg h4]
          by_cases h6 : (r - c) / bs + k < gst (mt - c) bs
          · rw [if_pos h6, if_pos (show (r - c) / bs + (k + 1) < gst (mt - c) bs by omega)]
          · rw [if_neg h6, if_neg (show ¬ (r - c) / bs + (k + 1) < gst (mt - c) bs by omega)]
    · rw [if_neg (by tauto), if_neg hcj]
      exact h.col c r hc hr
  · rw [h2, if_neg (by omega)]
    exact h.out c r hc

/-- One elimination of a triangular tile. -/
theorem elim_step (hb : 0 < bs) (h : Match mt bs minnt NT NZ s) {j kk bt : Nat} (hj : j < minnt) (hZ : NZ j = kk)
    (hbt : 0 < bt) (hT : kk + bt < NT j) (hg : NT j ≤ gst (mt - j) bs) :
    let o := Op.tt j (j + (gst (mt - j) bs - kk - 1) * bs) (j + (gst (mt - j) bs - kk - 1 - bt) * bs)
    LegalOps mt s [o] ∧ Match mt bs minnt NT (fun i => if i = j then kk + 1 else NZ i) (runOps s [o]) := by
  intro o
  set g := gst (mt - j) bs with hgd
  have h1 : ∀ q, q < g → j + q * bs < mt := fun q hq => by
    have := (lt_gst (n := mt - j) (q := q) hb).mp hq
    omega
  have h2 : ∀ q, q < g → g ≤ q + NT j → q + NZ j < g → s (j + q * bs) j = .tri := fun q hq h3 h4 => by
    rw [h.col j _ hj (h1 q hq)]
    unfold colSt
    rw [Nat.add_sub_cancel_left, Nat.mul_div_cancel _ hb, Nat.mul_mod_left, if_neg (by omega), if_neg (by omega),
      if_neg (by omega), if_pos (by omega)]
  have hm := h2 (g - kk - 1) (by omega) (by omega) (by omega)
  have hp := h2 (g - kk - 1 - bt) (by omega) (by omega) (by omega)
  have hlt : j + (g - kk - 1 - bt) * bs < j + (g - kk - 1) * bs := by
    have : (g - kk - 1 - bt) * bs < (g - kk - 1) * bs := Nat.mul_lt_mul_of_pos_right (by omega) hb
    omega
  have hl : LegalOps mt s [o] := by
    refine ⟨⟨by omega, hlt, h1 _ (by omega), fun c hc => ⟨?_, ?_⟩, hp, hm⟩, trivial⟩
    · exact h.inv _ j (by rw [hp]; decide) c hc
    · exact h.inv _ j (by rw [hm]; decide) c hc
  refine ⟨hl, fun c r hc hr => ?_, fun c r hc => ?_, rowInv_runOps h.inv hl⟩
  · show (s.set (j + (g - kk - 1) * bs) j .zero) r c = _
    unfold TSt.set
    by_cases hcj : c = j
    · subst hcj
      rw [if_pos rfl]
      by_cases hrr : r = c + (g - kk - 1) * bs
      · rw [if_pos ⟨hrr, rfl⟩, hrr]
        unfold colSt
        rw [Nat.add_sub_cancel_left, Nat.mul_div_cancel _ hb, Nat.mul_mod_left, if_neg (by omega), if_neg (by omega),
          if_neg (by omega), if_neg (by omega)]
      · rw [if_neg (by tauto), h.col c r hc hr, hZ]
        unfold colSt
        by_cases h4 : r < c
        · rw [if_pos h4, if_pos h4]
        rw [if_neg h4, if_neg h4]
        by_cases h5 : (r - c) / bs + NT c < gst (mt - c) bs
        · rw [if_pos h5, if_pos h5]
        rw [if_neg h5, if_neg h5]
        by_cases h6 : (r - c) % bs ≠ 0
        · rw [if_pos h6, if_pos h6]
        rw [if_neg h6, if_neg h6]
        have hdm := Nat.div_add_mod (r - c) bs
        have h7 : (r - c) / bs ≠ g - kk - 1 := fun e => by
          rw [e, Nat.mul_comm] at hdm
          omega
        by_cases h8 : (r - c) / bs + kk < gst (mt - c) bs
        · rw [if_pos h8, if_pos (show (r - c) / bs + (kk + 1) < gst (mt - c) bs by omega)]
        · rw [if_neg h8, if_neg (show ¬ (r - c) / bs + (kk + 1) < gst (mt - c) bs by omega)]
    · rw [if_neg (by tauto), if_neg hcj]
      exact h.col c r hc hr
  · show (s.set (j + (g - kk - 1) * bs) j .zero) r c = _
    unfold TSt.set
    rw [if_neg (by omega)]
    exact h.out c r hc

theorem succ_mod {n bs : Nat} (hb : 0 < bs) : (n + 1) % bs ≠ 1 ∧ bs > 1 ↔ n % bs ≠ 0 := by
  rcases Nat.lt_or_ge 1 bs with h | h
  · rw [Nat.add_mod, Nat.mod_eq_of_lt h]
    have := Nat.mod_lt n hb
    rcases Nat.lt_or_ge (n % bs + 1) bs with h1 | h1
    · rw [Nat.mod_eq_of_lt h1]; omega
    · have h2 : n % bs + 1 = bs := by omega
      rw [h2, Nat.mod_self]; omega
  · have : bs = 1 := by omega
    subst this
    simp [Nat.mod_one]

/-- Counters of a column: nothing was done, or one of the reduced groups is left. -/
def CntOK (g T Z : Nat) : Prop := T = 0 ∧ Z = 0 ∨ Z < T ∧ T ≤ g

/-- `nTnew` for the other columns, in terms of the numbers of groups. -/
theorem newT_succ {st : St} {j : Nat} (hb : 0 < bs) (hj : j + 1 < mt) :
    newT mt bs st (j + 1) = if (mt - (j + 1)) % bs ≠ 0 ∧ st.NT j > st.NZ j then st.NZ j + 1 else st.NZ j := by
  unfold newT
  rw [if_neg (by omega), Nat.add_sub_cancel]
  have e : mt - j = mt - (j + 1) + 1 := by omega
  rw [e]
  have := succ_mod (n := mt - (j + 1)) hb
  by_cases h : (mt - (j + 1)) % bs ≠ 0 ∧ st.NT j > st.NZ j
  · rw [if_pos h, if_pos ⟨(this.mpr h.1).1, (this.mpr h.1).2, h.2⟩]
  · rw [if_neg h, if_neg (fun h' => h ⟨this.mp ⟨h'.1, h'.2.1⟩, h'.2.2⟩)]

theorem newT_le {st : St} {j : Nat} (hb : 0 < bs) (hj : j + 1 < mt)
    (hc : CntOK (gst (mt - j) bs) (st.NT j) (st.NZ j)) : newT mt bs st (j + 1) ≤ gst (mt - (j + 1)) bs := by
  rw [newT_succ hb hj]
  have e : mt - j = mt - (j + 1) + 1 := by omega
  have hg := gst_succ (n := mt - (j + 1)) hb
  rw [← e] at hg
  unfold CntOK at hc
  split
  · next h => rw [if_neg h.1] at hg; omega
  · next h =>
    split at hg <;> omega

/-- The rows of a group that is about to be reduced are annihilated in the columns before. -/
theorem zero_rows {st : St} {NT' : Nat → Nat} (hb : 0 < bs) {j k : Nat} (hm : minnt ≤ mt)
    (hj : j + 1 < minnt) (h : Match mt bs minnt NT' st.NZ s) (hN : NT' j = st.NT j)
    (hc : CntOK (gst (mt - j) bs) (st.NT j) (st.NZ j)) (hk : k < newT mt bs st (j + 1)) {r : Nat} (hr : r < mt)
    (hjr : j + 1 ≤ r) (hg : (r - (j + 1)) / bs + k + 1 = gst (mt - (j + 1)) bs) {c : Nat} (hcj : c < j + 1) :
    s r c = .zero := by
  have key : s r j = .zero := by
    rw [h.col j r (by omega) hr, hN]
    rw [newT_succ hb (by omega)] at hk
    have e : mt - j = mt - (j + 1) + 1 := by omega
    have hG := gst_succ (n := mt - (j + 1)) hb
    rw [← e] at hG
    have e2 : r - j = r - (j + 1) + 1 := by omega
    unfold colSt
    rw [e2, if_neg (by omega)]
    have hdm := Nat.div_add_mod (r - (j + 1)) bs
    have hlt := Nat.mod_lt (r - (j + 1)) hb
    have hds := Nat.div_add_mod (r - (j + 1) + 1) bs
    have hlts := Nat.mod_lt (r - (j + 1) + 1) hb
    have hdiv := Nat.succ_div (a := r - (j + 1)) (b := bs)
    unfold CntOK at hc
    have hT : st.NT j > st.NZ j := by
      rcases hc with h0 | h0
      · rw [if_neg (by omega), h0.2] at hk
        omega
      · exact h0.1
    have hk2 : k + 1 ≤ st.NZ j + (if (mt - (j + 1)) % bs = 0 then 0 else 1) := by
      split at hk
      · next h0 => rw [if_neg h0.1]; omega
      · next h0 =>
        rw [if_pos (by by_contra h1; exact h0 ⟨h1, hT⟩)]; omega
    by_cases hd : bs ∣ r - (j + 1) + 1
    · rw [if_pos hd] at hdiv
      have h0 : (r - (j + 1) + 1) % bs = 0 := Nat.mod_eq_zero_of_dvd hd
      rw [if_neg (by rw [hdiv]; split at hG <;> split at hk2 <;> omega), if_neg (by omega),
        if_neg (by rw [hdiv]; split at hG <;> split at hk2 <;> omega)]
    · rw [if_neg hd] at hdiv
      have h0 : (r - (j + 1) + 1) % bs ≠ 0 := fun h0 => hd (Nat.dvd_of_mod_eq_zero h0)
      rw [if_neg (by rw [hdiv]; split at hG <;> split at hk2 <;> omega), if_pos h0]
  rcases Nat.lt_or_ge c j with h1 | h1
  · exact h.inv r j (by rw [key]; decide) c h1
  · have : c = j := by omega
    rw [this]; exact key

/-- Consecutive flat trees of a column. -/
theorem flats_run (hb : 0 < bs) {j k0 : Nat} (hj : j < minnt) (hZ : NZ j ≤ k0) (len : Nat)
    (hlen : k0 + len ≤ gst (mt - j) bs)
    (hz : ∀ k, k0 ≤ k → k < k0 + len → ∀ NT' s, (∀ i, i ≠ j → NT' i = NT i) → Match mt bs minnt NT' NZ s →
      ∀ r, r < mt → j ≤ r → (r - j) / bs + k + 1 = gst (mt - j) bs → ∀ c, c < j → s r c = .zero)
    (h : Match mt bs minnt NT NZ s) (hT : NT j = k0) :
    let l := (List.range' k0 len).flatMap fun k =>
      flatTree j (j + (gst (mt - j) bs - k - 1) * bs) (min bs (mt - (j + (gst (mt - j) bs - k - 1) * bs)))
    LegalOps mt s l ∧ Match mt bs minnt (fun i => if i = j then k0 + len else NT i) NZ (runOps s l) := by
  induction len with
  | zero =>
    refine ⟨trivial, ?_⟩
    have : (fun i => if i = j then k0 + 0 else NT i) = NT := by
      funext i; split
      · next e => rw [e, hT, Nat.add_zero]
      · rfl
    rw [this]
    exact h
  | succ len ih =>
    obtain ⟨h1, h2⟩ := ih (by omega) (fun k hk hk' => hz k hk (by omega))
    have := flat_step hb h2 (j := j) (k := k0 + len) hj (if_pos rfl) (by omega) (by omega)
      (hz _ (by omega) (by omega) _ _ (fun i hi => if_neg hi) h2)
    intro l
    have hl : l = (List.range' k0 len).flatMap (fun k =>
        flatTree j (j + (gst (mt - j) bs - k - 1) * bs) (min bs (mt - (j + (gst (mt - j) bs - k - 1) * bs)))) ++
        flatTree j (j + (gst (mt - j) bs - (k0 + len) - 1) * bs)
          (min bs (mt - (j + (gst (mt - j) bs - (k0 + len) - 1) * bs))) := by
      simp only [l, List.range'_concat, List.flatMap_append, Nat.one_mul, List.flatMap_cons, List.flatMap_nil,
        List.append_nil]
    rw [hl, legal_append, runOps_append]
    refine ⟨⟨h1, this.1⟩, ?_⟩
    have e : (fun i => if i = j then k0 + (len + 1) else NT i) =
        fun i => if i = j then k0 + len + 1 else if i = j then k0 + len else NT i := by
      funext i; split <;> rfl
    rw [e]
    exact this.2

/-- Consecutive eliminations of a column. -/
theorem elims_run (hb : 0 < bs) {j kk0 bt : Nat} (hj : j < minnt) (hbt : 0 < bt) (hT : kk0 + 2 * bt ≤ NT j)
    (hg : NT j ≤ gst (mt - j) bs) (len : Nat) (hlen : len ≤ bt) (h : Match mt bs minnt NT NZ s) (hZ : NZ j = kk0) :
    let l := (List.range' kk0 len).map fun kk =>
      Op.tt j (j + (gst (mt - j) bs - kk - 1) * bs) (j + (gst (mt - j) bs - kk - 1 - bt) * bs)
    LegalOps mt s l ∧ Match mt bs minnt NT (fun i => if i = j then kk0 + len else NZ i) (runOps s l) := by
  induction len with
  | zero =>
    refine ⟨trivial, ?_⟩
    have : (fun i => if i = j then kk0 + 0 else NZ i) = NZ := by
      funext i; split
      · next e => rw [e, hZ, Nat.add_zero]
      · rfl
    rw [this]
    exact h
  | succ len ih =>
    obtain ⟨h1, h2⟩ := ih (by omega)
    have := elim_step hb h2 (j := j) (kk := kk0 + len) (bt := bt) hj (if_pos rfl) hbt (by omega) hg
    intro l
    have hl : l = (List.range' kk0 len).map (fun kk =>
        Op.tt j (j + (gst (mt - j) bs - kk - 1) * bs) (j + (gst (mt - j) bs - kk - 1 - bt) * bs)) ++
        [Op.tt j (j + (gst (mt - j) bs - (kk0 + len) - 1) * bs)
          (j + (gst (mt - j) bs - (kk0 + len) - 1 - bt) * bs)] := by
      simp only [l, List.range'_concat, List.map_append, Nat.one_mul, List.map_cons, List.map_nil]
    rw [hl, legal_append, runOps_append]
    refine ⟨⟨h1, this.1⟩, ?_⟩
    have e : (fun i => if i = j then kk0 + (len + 1) else NZ i) =
        fun i => if i = j then kk0 + len + 1 else if i = j then kk0 + len else NZ i := by
      funext i; split <;> rfl
    rw [e]
    exact this.2

/-- Invariant of the loops. -/
structure Inv (mt bs minnt : Nat) (st : St) : Prop where
  cnt : ∀ j, j < minnt → CntOK (gst (mt - j) bs) (st.NT j) (st.NZ j)
  first : 0 < minnt → st.NT 0 = 0 ∨ st.NT 0 = gst mt bs
  cross : ∀ j, j + 1 < minnt → st.NT (j + 1) ≤ newT mt bs st (j + 1)
  mtch : Match mt bs minnt st.NT st.NZ (runOps init st.ops)
  legal : LegalOps mt init st.ops

theorem newT_mono {st st' : St} {j : Nat} (hb : 0 < bs) (hj : j + 1 < mt) (hZ : st.NZ j ≤ st'.NZ j)
    (hT : st.NT j > st.NZ j → st'.NT j > st'.NZ j) : newT mt bs st (j + 1) ≤ newT mt bs st' (j + 1) := by
  rw [newT_succ hb hj, newT_succ hb hj]
  split
  · next h => rw [if_pos ⟨h.1, hT h.2⟩]; omega
  · split <;> omega

/-- Number of reduced groups after the step. -/
theorem le_newT {st : St} (hI : Inv mt bs minnt st) {j : Nat} (hj : j < minnt) : st.NT j ≤ newT mt bs st j := by
  rcases j with _ | j
  · unfold newT; rw [if_pos rfl]; omega
  · exact hI.cross j hj

theorem newT_zero {st : St} (hI : Inv mt bs minnt st) (h0 : 0 < minnt) : newT mt bs st 0 = gst mt bs := by
  have := hI.first h0
  unfold newT; rw [if_pos rfl]; omega

theorem newT_le_gst {st : St} (hb : 0 < bs) (hm : minnt ≤ mt) (hI : Inv mt bs minnt st) {j : Nat} (hj : j < minnt) :
    newT mt bs st j ≤ gst (mt - j) bs := by
  rcases j with _ | j
  · rw [newT_zero hI hj]; exact le_rfl
  · exact newT_le hb (by omega) (hI.cnt j (by omega))

theorem flats_inv {st : St} (hb : 0 < bs) (hm : minnt ≤ mt) (hI : Inv mt bs minnt st) {j : Nat} (hj : j < minnt) :
    LegalOps mt (runOps init st.ops) (flats mt bs st j) ∧
      Match mt bs minnt (fun i => if i = j then newT mt bs st j else st.NT i) st.NZ
        (runOps (runOps init st.ops) (flats mt bs st j)) := by
  have hle := le_newT hI hj
  have hcnt := hI.cnt j hj
  unfold CntOK at hcnt
  have hg := newT_le_gst hb hm hI hj
  have e : st.NT j + (newT mt bs st j - st.NT j) = newT mt bs st j := by omega
  have hfl : flats mt bs st j = (List.range' (st.NT j) (newT mt bs st j - st.NT j)).flatMap fun k =>
      flatTree j (j + (gst (mt - j) bs - k - 1) * bs) (min bs (mt - (j + (gst (mt - j) bs - k - 1) * bs))) := by
    unfold flats
    by_cases h0 : j = 0
    · subst h0
      rw [if_pos rfl, newT_zero hI hj]
      rcases hI.first hj with h1 | h1
      · have := gst_pos hb (show 0 < mt by omega)
        rw [h1, if_pos (by omega), List.range_eq_range']
        refine List.flatMap_congr fun k _ => ?_
        rw [Nat.sub_zero, show gst mt bs - 1 - k = gst mt bs - k - 1 by omega]
      · rw [h1, Nat.sub_self, if_neg (by omega)]
        rfl
    · rw [if_neg h0]
  have := flats_run (s := runOps init st.ops) (NT := st.NT) (NZ := st.NZ) hb hj (k0 := st.NT j) (by omega)
    (newT mt bs st j - st.NT j) (by omega) ?_ hI.mtch rfl
  · rw [e, ← hfl] at this
    exact this
  · intro k hk hk' NT' s' hN hM r hr hjr hgr c hc
    rcases j with _ | j
    · omega
    · exact zero_rows hb hm hj hM (hN j (by omega)) (hI.cnt j (by omega)) (by omega) hr hjr hgr hc

theorem colStep_inv {st : St} (hb : 0 < bs) (hm : minnt ≤ mt) (hI : Inv mt bs minnt st) {j : Nat} (hj : j < minnt) :
    Inv mt bs minnt (colStep mt bs st j) := by
  have hle := le_newT hI hj
  have hcnt := hI.cnt j hj
  have hg := newT_le_gst hb hm hI hj
  obtain ⟨h1, h2⟩ := flats_inv hb hm hI hj
  have hbt : st.NZ j + 2 * batch st j ≤ st.NT j := by
    unfold CntOK at hcnt; unfold batch; omega
  have h3 : LegalOps mt (runOps (runOps init st.ops) (flats mt bs st j)) (elims mt bs st j) ∧
      Match mt bs minnt (fun i => if i = j then newT mt bs st j else st.NT i)
        (fun i => if i = j then st.NZ j + batch st j else st.NZ i)
        (runOps (runOps (runOps init st.ops) (flats mt bs st j)) (elims mt bs st j)) := by
    rcases Nat.eq_zero_or_pos (batch st j) with h0 | h0
    · have e1 : elims mt bs st j = [] := by unfold elims; rw [h0]; rfl
      have e2 : (fun i => if i = j then st.NZ j + batch st j else st.NZ i) = st.NZ := by
        funext i; split
        · next e => rw [h0, e, Nat.add_zero]
        · rfl
      rw [e1, e2]
      exact ⟨trivial, h2⟩
    · exact elims_run hb hj h0 (by rw [if_pos rfl]; omega) (by rw [if_pos rfl]; exact hg) (batch st j) le_rfl h2 rfl
  have hnew : CntOK (gst (mt - j) bs) (newT mt bs st j) (st.NZ j + batch st j) := by
    unfold CntOK at hcnt ⊢
    unfold batch at *
    omega
  refine ⟨fun i hi => ?_, fun h0 => ?_, fun i hi => ?_, ?_, ?_⟩
  · by_cases e : i = j
    · subst e
      simp only [colStep, if_true]
      exact hnew
    · simp only [colStep, if_neg e]
      exact hI.cnt i hi
  · by_cases e : 0 = j
    · subst e
      simp only [colStep, if_true]
      exact Or.inr (newT_zero hI h0)
    · simp only [colStep, if_neg e]
      exact hI.first h0
  · have hc' := hI.cnt i (by omega)
    have hmono : newT mt bs st (i + 1) ≤ newT mt bs (colStep mt bs st j) (i + 1) := by
      refine newT_mono hb (by omega) ?_ ?_
      · by_cases e : i = j
        · subst e; simp only [colStep, if_true]; omega
        · simp only [colStep, if_neg e]; exact le_rfl
      · by_cases e : i = j
        · subst e
          simp only [colStep, if_true]
          intro h
          unfold CntOK at hnew
          omega
        · simp only [colStep, if_neg e]; exact id
    by_cases e : i + 1 = j
    · have : (colStep mt bs st j).NT (i + 1) = newT mt bs st j := by simp only [colStep, if_pos e]
      rw [this]; subst e; exact hmono
    · have : (colStep mt bs st j).NT (i + 1) = st.NT (i + 1) := by simp only [colStep, if_neg e]
      rw [this]; exact le_trans (hI.cross i hi) hmono
  · show Match _ _ _ _ _ (runOps init (st.ops ++ flats mt bs st j ++ elims mt bs st j))
    rw [runOps_append, runOps_append]
    exact h3.2
  · show LegalOps mt init (st.ops ++ flats mt bs st j ++ elims mt bs st j)
    rw [legal_append, legal_append, runOps_append]
    exact ⟨⟨hI.legal, h1⟩, h3.1⟩

theorem sweep_inv (hb : 0 < bs) (hm : minnt ≤ mt) (j : Nat) (hj : j ≤ minnt) {st : St} (hI : Inv mt bs minnt st) :
    Inv mt bs minnt (sweep mt bs j st) := by
  induction j generalizing st with
  | zero => exact hI
  | succ j ih => exact ih (by omega) (colStep_inv hb hm hI hj)

/-- A sweep never decreases a counter. -/
theorem sweep_mono (hb : 0 < bs) (hm : minnt ≤ mt) (j : Nat) (hj : j ≤ minnt) {st : St} (hI : Inv mt bs minnt st)
    (i : Nat) : st.NT i ≤ (sweep mt bs j st).NT i ∧ st.NZ i ≤ (sweep mt bs j st).NZ i := by
  induction j generalizing st with
  | zero => exact ⟨le_rfl, le_rfl⟩
  | succ j ih =>
    have h1 := ih (by omega) (colStep_inv hb hm hI hj)
    have h2 : st.NT i ≤ (colStep mt bs st j).NT i ∧ st.NZ i ≤ (colStep mt bs st j).NZ i := by
      by_cases e : i = j
      · subst e; simp only [colStep, if_true]
        exact ⟨le_newT hI hj, by omega⟩
      · simp only [colStep, if_neg e]; exact ⟨le_rfl, le_rfl⟩
    exact ⟨h2.1.trans h1.1, h2.2.trans h1.2⟩

/-- The flag is never cleared by a sweep. -/
theorem sweep_upd (j : Nat) {st : St} (h : st.upd = true) : (sweep mt bs j st).upd = true := by
  induction j generalizing st with
  | zero => exact h
  | succ j ih => exact ih (by simp [colStep, h])

/-- If the flag is not set, the counters are those of a fixed point. -/
theorem sweep_fix (j : Nat) {st : St} (h : (sweep mt bs j st).upd = false) (i : Nat) (hi : i < j) :
    newT mt bs st i = st.NT i ∧ batch st i = 0 := by
  induction j generalizing st with
  | zero => omega
  | succ j ih =>
    have h1 : (colStep mt bs st j).upd = false := by
      by_contra h2
      rw [Bool.not_eq_false] at h2
      rw [show sweep mt bs (j + 1) st = sweep mt bs j (colStep mt bs st j) from rfl, sweep_upd j h2] at h
      exact Bool.noConfusion h
    simp only [colStep, Bool.or_eq_false_iff, decide_eq_false_iff_not, not_or, not_not] at h1
    have hb0 : batch st j = 0 := by omega
    have e : (colStep mt bs st j).NT = st.NT ∧ (colStep mt bs st j).NZ = st.NZ := by
      constructor <;> funext i
      · simp only [colStep]; split
        · next e => rw [h1.2.1, e]
        · rfl
      · simp only [colStep]; split
        · next e => rw [hb0, e, Nat.add_zero]
        · rfl
    by_cases hij : i = j
    · rw [hij]; exact ⟨h1.2.1, hb0⟩
    · have := ih h (by omega)
      unfold newT batch at this ⊢
      rw [e.1, e.2] at this
      exact this

/-- If the flag is set, a counter was changed. -/
theorem sweep_changed (hb : 0 < bs) (hm : minnt ≤ mt) (j : Nat) (hj : j ≤ minnt) {st : St}
    (hI : Inv mt bs minnt st) (h0 : st.upd = false) (h : (sweep mt bs j st).upd = true) :
    ∃ i, i < j ∧ st.NT i + st.NZ i < (sweep mt bs j st).NT i + (sweep mt bs j st).NZ i := by
  induction j generalizing st with
  | zero => rw [show sweep mt bs 0 st = st from rfl, h0] at h; exact Bool.noConfusion h
  | succ j ih =>
    have hI' := colStep_inv hb hm hI hj
    by_cases h1 : (colStep mt bs st j).upd = true
    · simp only [colStep, h0, Bool.false_or, decide_eq_true_eq] at h1
      have h2 := sweep_mono hb hm j (by omega) hI' j
      have h3 := le_newT hI hj
      simp only [colStep, if_true] at h2
      refine ⟨j, by omega, ?_⟩
      show _ < (sweep mt bs j (colStep mt bs st j)).NT j + (sweep mt bs j (colStep mt bs st j)).NZ j
      simp only [colStep]
      omega
    · rw [Bool.not_eq_true] at h1
      obtain ⟨i, hi, h2⟩ := ih (by omega) hI' h1 h
      refine ⟨i, by omega, ?_⟩
      have h3 : st.NT i + st.NZ i ≤ (colStep mt bs st j).NT i + (colStep mt bs st j).NZ i := by
        simp only [colStep, if_neg (show ¬ i = j by omega)]; exact le_rfl
      exact lt_of_le_of_lt h3 h2

/-- A fixed point is the end. -/
theorem fix_done (hb : 0 < bs) (hm : minnt ≤ mt) {st : St} (hI : Inv mt bs minnt st)
    (h : ∀ i, i < minnt → newT mt bs st i = st.NT i ∧ batch st i = 0) (i : Nat) (hi : i < minnt) :
    st.NT i = gst (mt - i) bs ∧ st.NZ i + 1 = gst (mt - i) bs := by
  have hz : ∀ i, i < minnt → st.NT i = gst (mt - i) bs → st.NZ i + 1 = gst (mt - i) bs := by
    intro i hi e
    have h1 := (h i hi).2
    have h2 := hI.cnt i hi
    have h3 := gst_pos hb (show 0 < mt - i by omega)
    unfold CntOK at h2; unfold batch at h1
    omega
  induction i with
  | zero =>
    have e : st.NT 0 = gst (mt - 0) bs := by rw [← (h 0 hi).1, newT_zero hI hi]; rfl
    exact ⟨e, hz 0 hi e⟩
  | succ i ih =>
    have h1 := ih (by omega)
    have e : st.NT (i + 1) = gst (mt - (i + 1)) bs := by
      rw [← (h _ hi).1, newT_succ hb (by omega)]
      have e2 : mt - i = mt - (i + 1) + 1 := by omega
      have hg := gst_succ (n := mt - (i + 1)) hb
      rw [← e2] at hg
      split
      · next h0 => rw [if_neg h0.1] at hg; omega
      · next h0 =>
        have : (mt - (i + 1)) % bs = 0 := by by_contra h2; exact h0 ⟨h2, by omega⟩
        rw [if_pos this] at hg; omega
    exact ⟨e, hz _ hi e⟩

/-- The last column done, all are. -/
theorem all_done (hb : 0 < bs) (hm : minnt ≤ mt) {st : St} (hI : Inv mt bs minnt st)
    (h : ¬ busy mt minnt bs st) (i : Nat) (hi : i < minnt) :
    st.NT i = gst (mt - i) bs ∧ st.NZ i + 1 = gst (mt - i) bs := by
  obtain ⟨d, hd⟩ : ∃ d, minnt = i + 1 + d := ⟨minnt - (i + 1), by omega⟩
  induction d generalizing i with
  | zero =>
    have hc := hI.cnt i hi
    unfold busy at h; unfold CntOK at hc
    rw [show minnt - 1 = i by omega, show mt - minnt + 1 = mt - i by omega] at h
    have := gst_pos hb (show 0 < mt - i by omega)
    omega
  | succ d ih =>
    have h1 := ih (i + 1) (by omega) (by omega)
    have h2 := hI.cross i (by omega)
    have hc := hI.cnt i hi
    rw [newT_succ hb (by omega)] at h2
    have e2 : mt - i = mt - (i + 1) + 1 := by omega
    have hg := gst_succ (n := mt - (i + 1)) hb
    rw [← e2] at hg
    have := gst_pos hb (show 0 < mt - (i + 1) by omega)
    unfold CntOK at hc
    split at h2
    · next h3 => rw [if_neg h3.1] at hg; omega
    · split at hg <;> omega

open Finset in
/-- The outer loop ends and leaves all columns done. -/
theorem loop_done (hb : 0 < bs) (hm : minnt ≤ mt) (h0 : 0 < minnt) (f : Nat) {st : St} (hI : Inv mt bs minnt st)
    (hf : 2 * ∑ i ∈ range minnt, gst (mt - i) bs ≤ f + ∑ i ∈ range minnt, (st.NT i + st.NZ i)) :
    ∃ st', Inv mt bs minnt st' ∧ ¬ busy mt minnt bs st' ∧ loop mt minnt bs f st = .done st'.ops := by
  induction f generalizing st with
  | zero =>
    have hnb : ¬ busy mt minnt bs st := by
      intro hbz
      have hlt : ∑ i ∈ range minnt, (st.NT i + st.NZ i) < ∑ i ∈ range minnt, 2 * gst (mt - i) bs := by
        refine Finset.sum_lt_sum (fun i hi => ?_) ⟨0, mem_range.mpr h0, ?_⟩
        · have := hI.cnt i (mem_range.mp hi); unfold CntOK at this; omega
        · have := hI.cnt 0 h0
          have := gst_pos hb (show 0 < mt - 0 by omega)
          unfold CntOK at *; omega
      rw [← Finset.mul_sum] at hlt
      omega
    exact ⟨st, hI, hnb, by unfold loop; rw [if_neg hnb]⟩
  | succ f ih =>
    unfold loop
    by_cases hbz : busy mt minnt bs st
    · rw [if_pos hbz]
      dsimp only
      have hI0 : Inv mt bs minnt { st with upd := false } := ⟨hI.cnt, hI.first, hI.cross, hI.mtch, hI.legal⟩
      have hI1 := sweep_inv hb hm minnt le_rfl hI0
      have hup : (sweep mt bs minnt { st with upd := false }).upd = true := by
        by_contra h1
        rw [Bool.not_eq_true] at h1
        have h2 := fix_done hb hm hI0 (sweep_fix minnt h1) (minnt - 1) (by omega)
        have e : mt - (minnt - 1) = mt - minnt + 1 := by omega
        rw [e] at h2
        dsimp only at h2
        unfold busy at hbz
        omega
      rw [if_pos hup]
      obtain ⟨i, hi, hlt⟩ := sweep_changed hb hm minnt le_rfl hI0 rfl hup
      refine ih hI1 ?_
      have : ∑ i ∈ range minnt, (st.NT i + st.NZ i) < ∑ i ∈ range minnt,
          ((sweep mt bs minnt { st with upd := false }).NT i + (sweep mt bs minnt { st with upd := false }).NZ i) := by
        refine Finset.sum_lt_sum (fun k _ => ?_) ⟨i, mem_range.mpr hi, hlt⟩
        have := sweep_mono hb hm minnt le_rfl hI0 k
        dsimp only at this
        omega
      omega
    · rw [if_neg hbz]
      exact ⟨st, hI, hbz, rfl⟩

end

end Verif.Tree

/-
Properties of the elimination orders: C32.
-/
import Verif.Tree
import Mathlib.Algebra.Group.Action.Defs

namespace Verif.Props

open Verif.Tree Finset

/-! ### Counting -/

/-- Row of the tile changed by an operation. -/
def opRow : Op → Nat
  | .ge _ k => k
  | .ts _ m _ => m
  | .tt _ m _ => m

/-- The operation annihilates tile `(r, j)`. -/
def kills (r j : Nat) : Op → Bool
  | .ge _ _ => false
  | .ts j' m _ => decide (j' = j ∧ m = r)
  | .tt j' m _ => decide (j' = j ∧ m = r)

/-- How far a tile is. -/
def wt : Ts → Nat
  | .full => 0
  | .tri => 1
  | .zero => 2

theorem run_eq (s : TSt) (o : Op) {r c : Nat} (h : ¬ (r = opRow o ∧ c = o.col)) : o.run s r c = s r c := by
  cases o <;> exact if_neg h

theorem run_wt {mt : Nat} {s : TSt} {o : Op} (h : o.ok mt s) :
    wt (s (opRow o) o.col) < wt (o.run s (opRow o) o.col) := by
  cases o with
  | ge j k => simp only [Op.run, TSt.set, opRow, Op.col, and_self, if_true]; rw [h.2.2.2]; decide
  | ts j m k => simp only [Op.run, TSt.set, opRow, Op.col, and_self, if_true]; rw [h.2.2.2.2.2]; decide
  | tt j m k => simp only [Op.run, TSt.set, opRow, Op.col, and_self, if_true]; rw [h.2.2.2.2.2]; decide

theorem run_wt_le {mt : Nat} {s : TSt} {o : Op} (h : o.ok mt s) (r c : Nat) : wt (s r c) ≤ wt (o.run s r c) := by
  by_cases e : r = opRow o ∧ c = o.col
  · rw [e.1, e.2]; exact (run_wt h).le
  · rw [run_eq s o e]

theorem runOps_wt_le {mt : Nat} {s : TSt} {l : List Op} (h : LegalOps mt s l) (r c : Nat) :
    wt (s r c) ≤ wt (runOps s l r c) := by
  induction l generalizing s with
  | nil => exact le_rfl
  | cons o l ih => exact (run_wt_le h.1 r c).trans (ih h.2)

/-- A tile that was worked on is not full. -/
theorem mem_wt {mt : Nat} {s : TSt} {l : List Op} (h : LegalOps mt s l) {o : Op} (ho : o ∈ l) :
    0 < wt (runOps s l (opRow o) o.col) := by
  induction l generalizing s with
  | nil => cases ho
  | cons o' l ih =>
    rcases List.mem_cons.mp ho with rfl | ho
    · exact lt_of_le_of_lt (Nat.zero_le _) (lt_of_lt_of_le (run_wt h.1) (runOps_wt_le h.2 _ _))
    · exact ih h.2 ho

theorem ok_row {mt : Nat} {s : TSt} {o : Op} (h : o.ok mt s) : opRow o < mt := by
  cases o with
  | ge j k => exact h.2.1
  | ts j m k => exact h.2.2.1
  | tt j m k => exact h.2.2.1

/-- Length of a legal list. -/
theorem length_le {mt N : Nat} {s : TSt} {l : List Op} (h : LegalOps mt s l) (hc : ∀ o ∈ l, o.col < N) :
    l.length + ∑ j ∈ range N, ∑ r ∈ range mt, wt (s r j) ≤ ∑ j ∈ range N, ∑ r ∈ range mt, wt (runOps s l r j) := by
  induction l generalizing s with
  | nil => simp [runOps]
  | cons o l ih =>
    have h1 := ih h.2 fun o' ho' => hc o' (List.mem_cons_of_mem _ ho')
    have h2 : ∑ j ∈ range N, ∑ r ∈ range mt, wt (s r j) < ∑ j ∈ range N, ∑ r ∈ range mt, wt (o.run s r j) := by
      refine Finset.sum_lt_sum (fun j _ => Finset.sum_le_sum fun r _ => run_wt_le h.1 r j)
        ⟨o.col, mem_range.mpr (hc o (List.mem_cons_self ..)), ?_⟩
      exact Finset.sum_lt_sum (fun r _ => run_wt_le h.1 r _) ⟨opRow o, mem_range.mpr (ok_row h.1), run_wt h.1⟩
    rw [List.length_cons]
    have h3 : runOps s (o :: l) = runOps (o.run s) l := rfl
    rw [h3]
    omega

/-- Number of operations that annihilate a tile. -/
theorem count_kills {mt : Nat} {s : TSt} {l : List Op} (h : LegalOps mt s l) (r j : Nat) :
    (l.filter (kills r j)).length + (if s r j = .zero then 1 else 0) = if runOps s l r j = .zero then 1 else 0 := by
  induction l generalizing s with
  | nil => exact Nat.zero_add _
  | cons o l ih =>
    have h1 := ih h.2
    have h3 : runOps s (o :: l) = runOps (o.run s) l := rfl
    rw [h3, ← h1]
    by_cases hk : kills r j o = true
    · rw [List.filter_cons_of_pos hk, List.length_cons]
      cases o with
      | ge j' k => simp [kills] at hk
      | ts j' m k =>
        simp only [kills, decide_eq_true_eq] at hk
        obtain ⟨rfl, rfl⟩ := hk
        have e : (Op.ts j' m k).run s m j' = .zero := by simp [Op.run, TSt.set]
        have e2 : s m j' = .full := h.1.2.2.2.2.2
        rw [e, e2, if_pos rfl, if_neg (by decide)]
      | tt j' m k =>
        simp only [kills, decide_eq_true_eq] at hk
        obtain ⟨rfl, rfl⟩ := hk
        have e : (Op.tt j' m k).run s m j' = .zero := by simp [Op.run, TSt.set]
        have e2 : s m j' = .tri := h.1.2.2.2.2.2
        rw [e, e2, if_pos rfl, if_neg (by decide)]
    · rw [List.filter_cons_of_neg hk]
      congr 1
      cases o with
      | ge j' k =>
        by_cases e : r = k ∧ j = j'
        · obtain ⟨rfl, rfl⟩ := e
          have e : (Op.ge j r).run s r j = .tri := by simp [Op.run, TSt.set]
          have e2 : s r j = .full := h.1.2.2.2
          rw [e, e2, if_neg (by decide), if_neg (by decide)]
        · rw [run_eq s _ e]
      | ts j' m k => rw [run_eq s _ (fun e => hk (by simp [kills, opRow, Op.col] at e ⊢; tauto))]
      | tt j' m k => rw [run_eq s _ (fun e => hk (by simp [kills, opRow, Op.col] at e ⊢; tauto))]

/-- Number of operations that triangularize a tile: at most one, and exactly one if the tile ends up triangular. -/
theorem count_ge {mt : Nat} {s : TSt} {l : List Op} (h : LegalOps mt s l) (r j : Nat) :
    (l.filter (fun o => decide (o = Op.ge j r))).length + (if s r j = .full then 0 else 1) ≤ 1 ∧
    (runOps s l r j = .tri → s r j = .full → (l.filter (fun o => decide (o = Op.ge j r))).length = 1) := by
  induction l generalizing s with
  | nil =>
    refine ⟨by simp only [List.filter_nil, List.length_nil]; split <;> omega, fun h1 h2 => ?_⟩
    rw [show runOps s [] = s from rfl, h2] at h1
    cases h1
  | cons o l ih =>
    obtain ⟨h1, h2⟩ := ih h.2
    have h3 : runOps s (o :: l) = runOps (o.run s) l := rfl
    rw [h3]
    by_cases hk : o = Op.ge j r
    · rw [List.filter_cons_of_pos (by simpa using hk), List.length_cons]
      subst hk
      have e : (Op.ge j r).run s r j = .tri := by simp [Op.run, TSt.set]
      have e2 : s r j = .full := h.1.2.2.2
      rw [e, if_neg (by decide)] at h1
      rw [e2, if_pos rfl]
      exact ⟨by omega, fun _ _ => by omega⟩
    · rw [List.filter_cons_of_neg (by simpa using hk)]
      by_cases e : r = opRow o ∧ j = o.col
      · have hz : o.run s r j = .zero := by
          cases o with
          | ge j' k => exact absurd (by rw [e.1, e.2]; rfl) hk
          | ts j' m k => rw [e.1, e.2]; simp [Op.run, TSt.set, opRow, Op.col]
          | tt j' m k => rw [e.1, e.2]; simp [Op.run, TSt.set, opRow, Op.col]
        rw [hz, if_neg (by decide)] at h1
        refine ⟨by split <;> omega, fun h4 _ => ?_⟩
        have := runOps_wt_le h.2 r j
        rw [hz, h4] at this
        simp [wt] at this
      · rw [run_eq s o e] at h1 h2
        exact ⟨h1, h2⟩

/-- Work for a column. -/
theorem sum_col (j d : Nat) :
    ∑ r ∈ range (j + 1 + d), wt (if r < j then Ts.full else if r = j then Ts.tri else Ts.zero) = 1 + 2 * d := by
  induction d with
  | zero =>
    rw [Nat.add_zero, Finset.sum_range_succ, if_neg (lt_irrefl j), if_pos rfl]
    rw [Finset.sum_eq_zero fun r hr => by rw [if_pos (mem_range.mp hr)]; rfl]
    rfl
  | succ d ih =>
    rw [show j + 1 + (d + 1) = j + 1 + d + 1 by omega, Finset.sum_range_succ, ih, if_neg (by omega), if_neg (by omega)]
    simp only [wt]
    omega

/-- `loperations` is the work for all columns. -/
theorem loperations_eq (mt nt : Nat) :
    loperations mt nt = ∑ j ∈ range (min mt nt), (1 + 2 * (mt - j - 1)) := by
  unfold loperations
  set q := min mt nt with hq
  have hqm : q ≤ mt := Nat.min_le_left ..
  have h1 := Finset.sum_range_id_mul_two q
  have h2 := Finset.sum_range_id_mul_two (q + 1)
  rw [Finset.sum_range_succ] at h2
  rw [Nat.add_sub_cancel] at h2
  set t := ∑ i ∈ range q, i with ht
  have e1 : q * (q - 1) / 2 = t := by omega
  have e2 : (q + 1) * q / 2 = t + q := by omega
  have h3 : ∑ j ∈ range q, (mt - j) + t = mt * q := by
    rw [ht, ← Finset.sum_add_distrib, Finset.sum_congr rfl fun j hj => show mt - j + j = mt by
      have := mem_range.mp hj; omega]
    rw [Finset.sum_const, card_range, smul_eq_mul, Nat.mul_comm]
  have h4 : ∑ j ∈ range q, (1 + 2 * (mt - j - 1)) + q = 2 * ∑ j ∈ range q, (mt - j) := by
    have : q = ∑ _j ∈ range q, 1 := by simp
    have e : ∑ j ∈ range q, (1 + 2 * (mt - j - 1)) + ∑ _j ∈ range q, 1 = 2 * ∑ j ∈ range q, (mt - j) := by
      rw [← Finset.sum_add_distrib, Finset.mul_sum]
      exact Finset.sum_congr rfl fun j hj => by have := mem_range.mp hj; omega
    rwa [← this] at e
  have h5 : q ≤ ∑ j ∈ range q, (mt - j) := by
    have : ∑ _j ∈ range q, 1 ≤ ∑ j ∈ range q, (mt - j) :=
      Finset.sum_le_sum fun j hj => by have := mem_range.mp hj; omega
    simpa using this
  rw [e1, e2]
  omega

/-! ### The generator -/

theorem loop_succ {mt minnt bs f : Nat} {st : St} {l : List Op} (h : loop mt minnt bs f st = .done l) :
    loop mt minnt bs (f + 1) st = .done l := by
  induction f generalizing st with
  | zero =>
    unfold loop at h ⊢
    split at h
    · cases h
    · next hb => rw [if_neg hb]; exact h
  | succ f ih =>
    rw [loop] at h ⊢
    split at h
    · next hb =>
      rw [if_pos hb]
      dsimp only at h ⊢
      split at h
      · next hu => rw [if_pos hu]; exact ih h
      · cases h
    · next hb => rw [if_neg hb]; exact h

theorem blockSize_pos {mt : Nat} (hm : 0 < mt) (q c : Nat) : 0 < blockSize mt q c := by
  unfold blockSize; omega

theorem inv_init {mt bs minnt : Nat} (hb : 0 < bs) : Inv mt bs minnt ⟨fun _ => 0, fun _ => 0, [], false⟩ := by
  refine ⟨fun j _ => Or.inl ⟨rfl, rfl⟩, fun _ => Or.inl rfl, fun j _ => Nat.zero_le _, ⟨fun j r hj hr => ?_,
    fun _ _ _ => rfl, rowInv_init⟩, trivial⟩
  show Ts.full = _
  unfold colSt
  by_cases h : r < j
  · rw [if_pos h]
  · rw [if_neg h, if_pos]
    rw [Nat.add_zero, lt_gst hb]
    have := Nat.div_mul_le_self (r - j) bs
    omega

/-- **C32.** For every number of tile rows and columns and every number of threads, the generator of the tree
factorizations ends; every operation of its list is applicable when its turn comes (`Op.ok`: the rows are annihilated
in all earlier columns, the annihilating row is above and triangular); the list fits into the allocated memory; every
tile below the diagonal is annihilated exactly once and no tile is triangularized more than once, the tiles of
the diagonal exactly once; no other tile is touched. -/
theorem C32_tree {mt nt conc : Nat} (hm : 0 < mt) (hn : 0 < nt) (_hc : 0 < conc) :
    ∃ ops : List Op, (∀ f, 2 * (mt * nt) ≤ f → treeOps f mt nt conc = .done ops) ∧
      LegalOps mt init ops ∧ ops.length ≤ loperations mt nt ∧
      (∀ r j, j < min mt nt → r < mt →
        runOps init ops r j = if r < j then .full else if r = j then .tri else .zero) ∧
      (∀ r j, j < min mt nt → j < r → r < mt → (ops.filter (kills r j)).length = 1) ∧
      (∀ r j, (ops.filter (fun o => decide (o = Op.ge j r))).length ≤ 1) ∧
      (∀ j, j < min mt nt → (ops.filter (fun o => decide (o = Op.ge j j))).length = 1) ∧
      (∀ o ∈ ops, o.col < min mt nt ∧ o.col ≤ opRow o ∧ opRow o < mt) := by
  set q := min mt nt with hq
  have hqm : q ≤ mt := Nat.min_le_left ..
  have hq0 : 0 < q := by omega
  set bs := blockSize mt q conc with hbs
  have hb : 0 < bs := blockSize_pos hm q conc
  have hsum : ∑ i ∈ range q, gst (mt - i) bs ≤ mt * nt := by
    have h1 : ∑ i ∈ range q, gst (mt - i) bs ≤ ∑ _i ∈ range q, mt :=
      Finset.sum_le_sum fun i _ => (gst_le hb).trans (Nat.sub_le ..)
    rw [Finset.sum_const, card_range, smul_eq_mul, Nat.mul_comm] at h1
    exact h1.trans (Nat.mul_le_mul_left _ (Nat.min_le_right ..))
  have hrun : ∀ f, 2 * (mt * nt) ≤ f → ∃ st', Inv mt bs q st' ∧ ¬ busy mt q bs st' ∧
      loop mt q bs f ⟨fun _ => 0, fun _ => 0, [], false⟩ = .done st'.ops := fun f hf =>
    loop_done hb hqm hq0 f (inv_init hb) (by omega)
  obtain ⟨st, hI, hbz, hl⟩ := hrun _ le_rfl
  have hall := all_done hb hqm hI hbz
  have hfin : ∀ r j, j < q → r < mt →
      runOps init st.ops r j = if r < j then .full else if r = j then .tri else .zero := by
    intro r j hj hr
    rw [hI.mtch.col j r hj hr]
    have h1 := hall j hj
    unfold colSt
    by_cases h2 : r < j
    · rw [if_pos h2, if_pos h2]
    rw [if_neg h2, if_neg h2, if_neg (show ¬ (r - j) / bs + st.NT j < gst (mt - j) bs by
      rw [h1.1]; exact Nat.not_lt.mpr (Nat.le_add_left ..))]
    have hdm := Nat.div_add_mod (r - j) bs
    by_cases h3 : r = j
    · subst h3
      rw [if_pos rfl, Nat.sub_self, Nat.zero_mod, Nat.zero_div, if_neg (by omega), if_pos (by omega)]
    · rw [if_neg h3]
      by_cases h4 : (r - j) % bs ≠ 0
      · rw [if_pos h4]
      · rw [if_neg h4, if_neg (show ¬ (r - j) / bs + st.NZ j < gst (mt - j) bs from ?_)]
        intro h5
        have h6 : (r - j) / bs = 0 := by generalize (r - j) / bs = Q at h5; omega
        rw [h6] at hdm
        omega
  have hcol : ∀ o ∈ st.ops, o.col < q := by
    intro o ho
    by_contra h
    have h1 := mem_wt hI.legal ho
    rw [hI.mtch.out o.col (opRow o) (by omega)] at h1
    simp [wt] at h1
  have hok : ∀ o ∈ st.ops, o.col ≤ opRow o ∧ opRow o < mt := by
    have key : ∀ (l : List Op) (s : TSt), LegalOps mt s l → ∀ o ∈ l, o.col ≤ opRow o ∧ opRow o < mt := by
      intro l
      induction l with
      | nil => intro s _ o ho; cases ho
      | cons o' l ih =>
        intro s h o ho
        rcases List.mem_cons.mp ho with rfl | ho
        · refine ⟨?_, ok_row h.1⟩
          cases o with
          | ge j k => exact h.1.1
          | ts j m k => exact h.1.1.trans h.1.2.1.le
          | tt j m k => exact h.1.1.trans h.1.2.1.le
        · exact ih _ h.2 o ho
    exact key _ _ hI.legal
  refine ⟨st.ops, fun f hf => ?_, hI.legal, ?_, hfin, fun r j hj hjr hr => ?_, fun r j => ?_, fun j hj => ?_,
    fun o ho => ⟨hcol o ho, hok o ho⟩⟩
  · obtain ⟨d, rfl⟩ : ∃ d, f = 2 * (mt * nt) + d := ⟨f - 2 * (mt * nt), by omega⟩
    clear hf
    induction d with
    | zero => exact hl
    | succ d ih => exact loop_succ ih
  · have h1 := length_le hI.legal hcol
    have h2 : ∑ j ∈ range q, ∑ r ∈ range mt, wt (runOps init st.ops r j) = loperations mt nt := by
      rw [loperations_eq]
      refine Finset.sum_congr rfl fun j hj => ?_
      have hj' := mem_range.mp hj
      rw [Finset.sum_congr rfl fun r hr => by rw [hfin r j hj' (mem_range.mp hr)]]
      have := sum_col j (mt - j - 1)
      rw [show j + 1 + (mt - j - 1) = mt by omega] at this
      exact this
    omega
  · have h1 := count_kills hI.legal r j
    rw [hfin r j hj hr, if_neg (show ¬ r < j by omega), if_neg (show ¬ r = j by omega), if_pos rfl,
      if_neg (show ¬ init r j = .zero from fun e => by cases e)] at h1
    omega
  · have h1 := (count_ge hI.legal r j).1
    rw [if_pos (by rfl)] at h1
    omega
  · refine (count_ge hI.legal j j).2 ?_ rfl
    rw [hfin j j hj (by omega), if_neg (lt_irrefl j), if_pos rfl]

/-- `C32_tree` for 4 by 2 tiles and one thread: two groups of rows. -/
example : ∀ f, 16 ≤ f → ∃ ops, treeOps f 4 2 1 = .done ops ∧ ops.length ≤ 12 ∧ runOps init ops 3 1 = .zero := by
  intro f hf
  obtain ⟨ops, h1, -, h3, h4, -⟩ := C32_tree (mt := 4) (nt := 2) (conc := 1) (by decide) (by decide) (by decide)
  exact ⟨ops, h1 f hf, h3, h4 3 1 (by decide) (by decide)⟩

/-- The list for 4 by 2 tiles and 8 threads. -/
example : treeOps 16 4 2 8 = .done [.ge 0 3, .ge 0 2, .ge 0 1, .ge 0 0, .tt 0 3 1, .tt 0 2 0, .ge 1 3, .ge 1 2,
    .tt 0 1 0, .ge 1 1, .tt 1 3 2, .tt 1 2 1] := by rfl

/-- The list for 4 by 2 tiles and 1 thread. -/
example : treeOps 16 4 2 1 = .done [.ge 0 3, .ge 0 0, .ts 0 1 0, .ts 0 2 0, .tt 0 3 0, .ge 1 1, .ts 1 2 1,
    .ts 1 3 1] := by rfl

end Verif.Props

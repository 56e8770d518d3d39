/-
The lists of operations of the flat-tree and tree variants: legality, what remains at the end, distinct `T` tiles.
-/
import Verif.QrFactor
import Verif.Props.Tree

namespace Verif.Qr

open Verif.Layout Verif.Tile Verif.Tree Finset Matrix

universe u v

/-! ### Distinct operations -/

/-- Kind, row and column. -/
def opKey : Op → Bool × Nat × Nat
  | .ge j k => (true, k, j)
  | .ts j m _ => (false, m, j)
  | .tt j m _ => (false, m, j)

theorem run_ne_full {mt : Nat} {s : TSt} {o : Op} (h : o.ok mt s) {r c : Nat} (hf : o.run s r c = .full) :
    s r c = .full := by
  by_cases e : r = Props.opRow o ∧ c = o.col
  · exfalso
    have := Props.run_wt h
    rw [← e.1, ← e.2, hf] at this
    exact absurd this (by simp [Props.wt])
  · rwa [Props.run_eq s o e] at hf

theorem run_ne_zero {mt : Nat} {s : TSt} {o : Op} (h : o.ok mt s) {r c : Nat} (hz : o.run s r c ≠ .zero) :
    s r c ≠ .zero := by
  intro e
  have := Props.run_wt_le h r c
  rw [e] at this
  cases h' : o.run s r c with
  | zero => exact hz h'
  | full => rw [h'] at this; exact absurd this (by decide)
  | tri => rw [h'] at this; exact absurd this (by decide)

theorem mem_ge_full {mt : Nat} {s : TSt} {l : List Op} (h : LegalOps mt s l) {j k : Nat} (ho : (true, k, j) ∈ l.map opKey) :
    s k j = .full := by
  induction l generalizing s with
  | nil => cases ho
  | cons o' l ih =>
    rcases List.mem_cons.mp ho with e | ho
    · cases o' with
      | ge j' k' =>
        simp only [opKey, Prod.mk.injEq, true_and] at e
        rw [e.1, e.2]; exact h.1.2.2.2
      | ts => simp [opKey] at e
      | tt => simp [opKey] at e
    · exact run_ne_full h.1 (ih h.2 ho)

theorem mem_kill {mt : Nat} {s : TSt} {l : List Op} (h : LegalOps mt s l) {j m : Nat} (ho : (false, m, j) ∈ l.map opKey) :
    s m j ≠ .zero := by
  induction l generalizing s with
  | nil => cases ho
  | cons o' l ih =>
    rcases List.mem_cons.mp ho with e | ho
    · cases o' with
      | ge => simp [opKey] at e
      | ts j' m' k' =>
        simp only [opKey, Prod.mk.injEq, true_and] at e
        rw [e.1, e.2, h.1.2.2.2.2.2]; decide
      | tt j' m' k' =>
        simp only [opKey, Prod.mk.injEq, true_and] at e
        rw [e.1, e.2, h.1.2.2.2.2.2]; decide
    · exact run_ne_zero h.1 (ih h.2 ho)

theorem legal_key_nodup {mt : Nat} {s : TSt} {l : List Op} (h : LegalOps mt s l) : (l.map opKey).Nodup := by
  induction l generalizing s with
  | nil => exact List.nodup_nil
  | cons o l ih =>
    rw [List.map_cons, List.nodup_cons]
    refine ⟨fun hm => ?_, ih h.2⟩
    cases o with
    | ge j k =>
      have := mem_ge_full h.2 (j := j) (k := k) hm
      simp [Op.run, TSt.set] at this
    | ts j m k =>
      have := mem_kill h.2 (j := j) (m := m) hm
      simp [Op.run, TSt.set] at this
    | tt j m k =>
      have := mem_kill h.2 (j := j) (m := m) hm
      simp [Op.run, TSt.set] at this

theorem nodup_of_key {M : Type u} {off : Nat → Nat} {T : TMat M} {l : List Op} (h : (l.map opKey).Nodup)
    (hi : ∀ o ∈ l, ∀ o' ∈ l, o.row = o'.row → opTc off o = opTc off o' → opKey o = opKey o') :
    (l.map (opTt off T)).Nodup := by
  rw [List.nodup_map_iff_inj_on (List.Nodup.of_map _ h)]
  intro o ho o' ho' e
  obtain ⟨e1, e2⟩ := TMat.at'_inj.mp e
  exact List.inj_on_of_nodup_map h ho ho' (hi o ho o' ho' e1 e2)

theorem nodup_tree {M : Type u} {T : TMat M} {mt N : Nat} {s : TSt} {l : List Op} (h : LegalOps mt s l)
    (hc : ∀ o ∈ l, o.col < N) (hN : N ≤ T.d.nt / 2) : (l.map (opTt (t2 T) T)).Nodup := by
  refine nodup_of_key (legal_key_nodup h) fun o ho o' ho' e1 e2 => ?_
  have h1 := hc o ho
  have h2 := hc o' ho'
  cases o <;> cases o' <;> simp only [Op.row, opTc, t2, opKey, Op.col, Prod.mk.injEq] at * <;>
    first | exact ⟨trivial, e1, by omega⟩ | (exfalso; omega)

/-! ### The flat tree -/

/-- Operations of the variants without tree (compute/pzgeqrf.c:44-85): column by column a flat tree. -/
def flatOps (mt nt : Nat) : List Op := (List.range (min mt nt)).flatMap fun k => flatTree k k (mt - k)

theorem flatOps_run {mt : Nat} (t : Nat) (ht : t ≤ mt) :
    LegalOps mt init ((List.range t).flatMap fun k => flatTree k k (mt - k)) ∧
    ∀ r c, runOps init ((List.range t).flatMap fun k => flatTree k k (mt - k)) r c =
      if c < t ∧ c ≤ r ∧ r < mt then (if r = c then .tri else .zero) else .full := by
  induction t with
  | zero => exact ⟨trivial, fun r c => by simp [runOps, init]⟩
  | succ t ih =>
    obtain ⟨h1, h2⟩ := ih (by omega)
    rw [List.range_succ, List.flatMap_append, List.flatMap_singleton]
    have hf := flat_legal (mt := mt) (j := t) (r0 := t) (sz := mt - t)
      (s := runOps init ((List.range t).flatMap fun k => flatTree k k (mt - k))) (by omega) le_rfl (by omega)
      (fun i hi c hc => by rw [h2, if_pos (by omega), if_neg (by omega)])
      (fun i hi => by rw [h2, if_neg (by omega)])
    refine ⟨legal_append.mpr ⟨h1, hf.1⟩, fun r c => ?_⟩
    rw [runOps_append, hf.2, h2]
    by_cases hct : c = t
    · rw [hct, show t + (mt - t) = mt by omega]
      by_cases hr : t ≤ r ∧ r < mt
      · rw [if_pos ⟨rfl, hr⟩, if_pos (show t < t + 1 ∧ t ≤ r ∧ r < mt by omega)]
      · rw [if_neg (show ¬ (t = t ∧ t ≤ r ∧ r < mt) by omega), if_neg (show ¬ (t < t ∧ t ≤ r ∧ r < mt) by omega),
          if_neg (show ¬ (t < t + 1 ∧ t ≤ r ∧ r < mt) by omega)]
    · rw [if_neg (show ¬ (c = t ∧ t ≤ r ∧ r < t + (mt - t)) by omega)]
      by_cases hr : c < t ∧ c ≤ r ∧ r < mt
      · rw [if_pos hr, if_pos (show c < t + 1 ∧ c ≤ r ∧ r < mt by omega)]
      · rw [if_neg hr, if_neg (show ¬ (c < t + 1 ∧ c ≤ r ∧ r < mt) by omega)]

theorem mem_flatTree {j k sz : Nat} {o : Op} (h : o ∈ flatTree j k sz) :
    o = .ge j k ∨ ∃ m, k < m ∧ m < k + sz ∧ o = .ts j m k := by
  unfold flatTree at h
  rcases List.mem_cons.mp h with h | h
  · exact Or.inl h
  · obtain ⟨m, hm, rfl⟩ := List.mem_map.mp h
    rw [List.mem_range'_1] at hm
    exact Or.inr ⟨m, by omega, by omega, rfl⟩

theorem mem_flatOps {mt nt : Nat} {o : Op} (h : o ∈ flatOps mt nt) :
    ∃ k, k < min mt nt ∧ (o = .ge k k ∨ ∃ m, k < m ∧ m < mt ∧ o = .ts k m k) := by
  obtain ⟨k, hk, ho⟩ := List.mem_flatMap.mp h
  rw [List.mem_range] at hk
  refine ⟨k, hk, ?_⟩
  rcases mem_flatTree ho with h | ⟨m, h1, h2, h3⟩
  · exact Or.inl h
  · exact Or.inr ⟨m, h1, by omega, h3⟩

/-! ### Lists that reduce a matrix to triangular form -/

/-- A list of operations that reduces an `mt` by `nt` tile matrix to triangular form. -/
structure OpsOK (mt nt : Nat) (ops : List Op) : Prop where
  legal : LegalOps mt init ops
  col : ∀ o ∈ ops, o.col < min mt nt
  fin : ∀ r j, j < min mt nt → r < mt → runOps init ops r j = if r < j then .full else if r = j then .tri else .zero

theorem flatOps_ok (mt nt : Nat) : OpsOK mt nt (flatOps mt nt) where
  legal := (flatOps_run _ (Nat.min_le_left ..)).1
  col := fun o ho => by
    obtain ⟨k, hk, rfl | ⟨m, _, _, rfl⟩⟩ := mem_flatOps ho <;> exact hk
  fin := fun r j hj hr => by
    unfold flatOps
    rw [(flatOps_run _ (Nat.min_le_left ..)).2]
    by_cases h : r < j
    · rw [if_neg (by omega), if_pos h]
    · rw [if_pos (by omega), if_neg h]

/-- The list registered by `plasma_tree_operations` for `conc` threads (control/tree.c:83-170, called from
compute/pzgeqrf_tree.c:37-40, compute/pzunmqr_tree.c:41-44, compute/pzungqr_tree.c:41-44). -/
def treeList (mt nt conc : Nat) : List Op :=
  match treeOps (2 * (mt * nt)) mt nt conc with
  | .done l => l
  | _ => []

theorem treeList_ok {mt nt conc : Nat} (hm : 0 < mt) (hn : 0 < nt) (hc : 0 < conc) :
    OpsOK mt nt (treeList mt nt conc) := by
  obtain ⟨ops, h1, h2, -, h3, -, -, -, h4⟩ := Props.C32_tree hm hn hc
  have e : treeList mt nt conc = ops := by unfold treeList; rw [h1 _ le_rfl]
  rw [e]
  exact ⟨h2, fun o ho => (h4 o ho).1, h3⟩

theorem nodup_flat {M : Type u} (T : TMat M) (mt nt : Nat) : ((flatOps mt nt).map (opTt id T)).Nodup := by
  refine nodup_of_key (legal_key_nodup (flatOps_ok mt nt).legal) fun o ho o' ho' e1 e2 => ?_
  obtain ⟨k, _, rfl | ⟨m, h1, _, rfl⟩⟩ := mem_flatOps ho <;>
    obtain ⟨k', _, rfl | ⟨m', h1', _, rfl⟩⟩ := mem_flatOps ho' <;>
      simp only [Op.row, opTc, id, opKey, Prod.mk.injEq] at * <;>
      first | exact ⟨trivial, e1, by omega⟩ | (exfalso; omega)

section
variable {M : Type u} {α : Type v} [CommRing α] [StarRing α] {b : Nat} {A T C : TMat M}

/-- What is left of a matrix is its upper triangle. -/
theorem hat_triu {mm na : Nat} (hA : A.Al b) (hAm : A.d.m = mm) (hAn : A.d.n = na) {ops : List Op}
    (ho : OpsOK A.d.mt A.d.nt ops) (X : Nat → Nat → α) {r c : Nat} (hr : r < mm) (hc : c < na) :
    hat b (runOps init ops) X r c = triu X r c := by
  have hb := hA.pos
  have h1 : r / b < A.d.mt := hA.row_mt (by rw [hAm]; exact hr)
  have h2 : c / b < A.d.nt := hA.col_nt (by rw [hAn]; exact hc)
  have hr' := divmod r b
  have hc' := divmod c b
  have hrb := Nat.mod_lt r hb
  have hcb := Nat.mod_lt c hb
  unfold triu
  by_cases hlt : r / b < c / b
  · have h3 : (r / b + 1) * b ≤ c / b * b := Nat.mul_le_mul_right b hlt
    rw [Nat.add_mul] at h3
    have hrc : r ≤ c := by omega
    rw [if_pos hrc]
    refine hat_full ?_
    by_cases hm : c / b < min A.d.mt A.d.nt
    · rw [ho.fin _ _ hm h1, if_pos hlt]
    · have : ∀ l, (∀ o ∈ l, o.col < min A.d.mt A.d.nt) → ∀ ts : TSt, runOps ts l (r / b) (c / b) = ts (r / b) (c / b) := by
        intro l hl
        induction l with
        | nil => intro ts; rfl
        | cons o l ih =>
          intro ts
          show runOps (o.run ts) l _ _ = _
          rw [ih (fun o' h' => hl o' (List.mem_cons_of_mem _ h')), Props.run_eq ts o]
          intro e
          have := hl o List.mem_cons_self
          omega
      rw [this ops ho.col]; rfl
  · have hm : c / b < min A.d.mt A.d.nt := by omega
    have hf := ho.fin _ _ hm h1
    rw [if_neg hlt] at hf
    by_cases he : r / b = c / b
    · rw [if_pos he] at hf
      rw [hat_tri hf]
      have h4 : r / b * b = c / b * b := by rw [he]
      by_cases hrc : r % b ≤ c % b
      · rw [if_pos hrc, if_pos (by omega)]
      · rw [if_neg hrc, if_neg (by omega)]
    · rw [if_neg he] at hf
      rw [hat_zero hf, if_neg]
      have h3 : (c / b + 1) * b ≤ r / b * b := Nat.mul_le_mul_right b (by omega)
      rw [Nat.add_mul] at h3
      omega

/-- **Factorization**: `Q` is unitary and `Q R` is the old matrix, if the `T` tiles of the operations on two triangles are
zero before. -/
theorem fac_ok {K : QrKern α} (hK : QrSpec K) {ib : Nat} (hib : 0 < ib) {mm na : Nat} {off : Nat → Nat} (hA : A.Al b)
    (hAm : A.d.m = mm) (hAn : A.d.n = na) (hT : T.id ≠ A.id) {ops : List Op} (ho : OpsOK A.d.mt A.d.nt ops)
    (hnd : (ops.map (opTt off T)).Nodup) (s : Store (M × Nat × Nat) α) (hz : ∀ o ∈ ops, ZeroT ib b off T s o) :
    qAll b mm na ib off A T (texec (ops.flatMap (facT K ib off A T)) s) ops ∈ unitaryGroup (Fin mm) α ∧
    ∀ r c, r < mm → c < na →
      lmul (qAll b mm na ib off A T (texec (ops.flatMap (facT K ib off A T)) s) ops)
        (triu (A.el (texec (ops.flatMap (facT K ib off A T)) s))) r c = A.el s r c := by
  obtain ⟨h1, h2⟩ := fac_run hK hib hA hAm hAn hT rowInv_init ho.legal
    (fun o h => lt_of_lt_of_le (ho.col o h) (Nat.min_le_right ..)) hnd s hz
  refine ⟨h1, fun r c hr hc => ?_⟩
  rw [← hat_full (b := b) (ts := init) (X := A.el s) (r := r) (c := c) rfl, ← h2 r c hr hc]
  unfold lmul
  rw [dif_pos hr, dif_pos hr]
  exact sum_congr rfl fun l _ => by rw [hat_triu hA hAm hAn ho _ l.2 hc]

/-! ### The literal loop nests without tree -/

theorem flatMap_flatOps {β : Type*} (mt nt : Nat) (f : Op → List β) :
    (flatOps mt nt).flatMap f = (List.range (min mt nt)).flatMap fun k =>
      f (.ge k k) ++ (span (k + 1) mt).flatMap fun m => f (.ts k m k) := by
  unfold flatOps
  rw [List.flatMap_assoc]
  congr 1; funext k
  unfold flatTree span
  rw [List.flatMap_cons, List.flatMap_map, show mt - k - 1 = mt - (k + 1) by omega]

theorem flatMap_flatOps_rev {β : Type*} (mt nt : Nat) (f : Op → List β) :
    (flatOps mt nt).reverse.flatMap f = (List.range (min mt nt)).reverse.flatMap fun k =>
      ((span (k + 1) mt).reverse.flatMap fun m => f (.ts k m k)) ++ f (.ge k k) := by
  unfold flatOps
  rw [List.reverse_flatMap, List.flatMap_assoc]
  congr 1; funext k
  unfold flatTree span
  rw [Function.comp, List.reverse_cons, List.flatMap_append, List.flatMap_singleton, ← List.map_reverse, List.flatMap_map,
    show mt - k - 1 = mt - (k + 1) by omega]

theorem flatMap_eq {ι β : Type*} {l : List ι} {f g : ι → List β} (h : ∀ x ∈ l, f x = g x) : l.flatMap f = l.flatMap g := by
  induction l with
  | nil => rfl
  | cons x l ih =>
    rw [List.flatMap_cons, List.flatMap_cons, h x List.mem_cons_self, ih fun y hy => h y (List.mem_cons_of_mem _ hy)]

/-- A tile row before another one is complete. -/
theorem mview_full (hA : A.Al b) {k m : Nat} (hk : k < m) (hm : m < A.d.mt) : A.d.mview k = b := by
  rw [hA.mview (by omega)]
  refine tdim_full hk ?_
  rw [hA.mt_eq, lt_ceilDiv hA.pos] at hm
  exact hm

theorem nview_full (hA : A.Al b) {k m : Nat} (hk : k < m) (hm : m < A.d.nt) : A.d.nview k = b := by
  rw [hA.nview (by omega)]
  refine tdim_full hk ?_
  rw [hA.nt_eq, lt_ceilDiv hA.pos] at hm
  exact hm

theorem nview_le (hA : A.Al b) {k : Nat} (hk : k < A.d.nt) : A.d.nview k ≤ b := by
  rw [hA.nview hk]; exact Nat.min_le_left ..

theorem pzgeqrf_eq (K : QrKern α) (hA : A.Al b) :
    pzgeqrf K A T = (flatOps A.d.mt A.d.nt).flatMap (facT K T.d.mb id A T) := by
  rw [flatMap_flatOps]
  unfold pzgeqrf
  refine flatMap_eq fun k hk => ?_
  rw [List.mem_range] at hk
  refine congrArg₂ _ rfl (flatMap_eq fun m hm => ?_)
  rw [mem_span] at hm
  unfold facT kerT updL
  refine congrArg₂ _ rfl (List.map_congr_left fun n _ => ?_)
  have h1 : A.d.mview k = b := mview_full hA (m := m) (by omega) hm.2
  have h2 := nview_le hA (k := k) (by omega)
  rw [h1, hA.mb, Nat.min_eq_right (by omega)]
  rfl

theorem pzunmqr_left_eq {t : Bool} (hA : A.Al b) (hC : C.Al b) (hm : C.d.m = A.d.m) :
    pzunmqr (α := α) true t A T C = (if t then flatOps A.d.mt A.d.nt else (flatOps A.d.mt A.d.nt).reverse).flatMap
      (updL t T.d.mb id A T C (List.range C.d.nt)) := by
  have hmt : C.d.mt = A.d.mt := by rw [hA.mt_eq, hC.mt_eq, hm]
  have hg : ∀ k n, unmqrL (α := α) t (C.d.mview k) (C.d.nview n) (min (A.d.nview k) (A.d.mview k)) T.d.mb (A.at' k k)
      (T.at' k k) (C.at' k n) = unmqrL t (C.d.mview k) (C.d.nview n) (min (A.d.mview k) (A.d.nview k)) T.d.mb (A.at' k k)
      (T.at' k k) (C.at' k n) := fun k n => by rw [Nat.min_comm]
  have hs : ∀ k m, k < min A.d.mt A.d.nt → k + 1 ≤ m ∧ m < C.d.mt → ∀ n,
      stmqrL (α := α) false t C.d.mb (C.d.nview n) (C.d.mview m) (A.d.nview k) T.d.mb (C.at' k n) (C.at' m n)
        (A.at' m k) (T.at' m k) =
      stmqrL false t (C.d.mview k) (C.d.nview n) (C.d.mview m) (min (A.d.mview k + A.d.mview m) (A.d.nview k)) T.d.mb
        (C.at' k n) (C.at' m n) (A.at' m k) (T.at' m k) := by
    intro k m hk hm n
    have h1 : A.d.mview k = b := mview_full hA (m := m) (by omega) (by omega)
    have h1' : C.d.mview k = b := mview_full hC (m := m) (by omega) (by omega)
    have h2 := nview_le hA (k := k) (by omega)
    rw [h1, h1', hC.mb, Nat.min_eq_right (by omega)]
  unfold pzunmqr
  rw [if_pos rfl]
  cases t with
  | true =>
    rw [if_pos rfl, if_pos rfl, flatMap_flatOps, ← hmt]
    rw [hmt]
    refine flatMap_eq fun k hk => ?_
    rw [List.mem_range] at hk
    rw [hmt] at *
    exact congrArg₂ _ (List.map_congr_left fun n _ => hg k n)
      (flatMap_eq fun m hm => List.map_congr_left fun n _ => hs k m hk (mem_span.mp hm) n)
  | false =>
    rw [if_neg (by decide), if_neg (by decide), flatMap_flatOps_rev]
    refine flatMap_eq fun k hk => ?_
    rw [List.mem_reverse, List.mem_range] at hk
    rw [hmt] at *
    exact congrArg₂ _ (flatMap_eq fun m hm => List.map_congr_left fun n _ =>
      hs k m hk (mem_span.mp (List.mem_reverse.mp hm)) n) (List.map_congr_left fun n _ => hg k n)

theorem pzunmqr_right_eq {t : Bool} (hA : A.Al b) (hC : C.Al b) (hm : C.d.n = A.d.m) :
    pzunmqr (α := α) false t A T C = (if t then (flatOps A.d.mt A.d.nt).reverse else flatOps A.d.mt A.d.nt).flatMap
      (updR t T.d.mb id A T C (List.range C.d.mt)) := by
  have hmt : C.d.nt = A.d.mt := by rw [hA.mt_eq, hC.nt_eq, hm]
  have hg : ∀ k n, unmqrR (α := α) t (C.d.mview n) (C.d.nview k) (min (A.d.nview k) (A.d.mview k)) T.d.mb (A.at' k k)
      (T.at' k k) (C.at' n k) = unmqrR t (C.d.mview n) (C.d.nview k) (min (A.d.mview k) (A.d.nview k)) T.d.mb (A.at' k k)
      (T.at' k k) (C.at' n k) := fun k n => by rw [Nat.min_comm]
  have hs : ∀ k m, k < min A.d.mt A.d.nt → k + 1 ≤ m ∧ m < C.d.nt → ∀ n,
      stmqrR (α := α) false t (C.d.mview n) C.d.nb (C.d.nview m) (A.d.nview k) T.d.mb (C.at' n k) (C.at' n m)
        (A.at' m k) (T.at' m k) =
      stmqrR false t (C.d.mview n) (C.d.nview k) (C.d.nview m) (min (A.d.mview k + A.d.mview m) (A.d.nview k)) T.d.mb
        (C.at' n k) (C.at' n m) (A.at' m k) (T.at' m k) := by
    intro k m hk hm n
    have h1 : A.d.mview k = b := mview_full hA (m := m) (by omega) (by omega)
    have h1' : C.d.nview k = b := nview_full hC (m := m) (by omega) (by omega)
    have h2 := nview_le hA (k := k) (by omega)
    rw [h1, h1', hC.nb, Nat.min_eq_right (by omega)]
  unfold pzunmqr
  rw [if_neg (by decide)]
  cases t with
  | false =>
    rw [if_neg (by decide), if_neg (by decide), flatMap_flatOps]
    refine flatMap_eq fun k hk => ?_
    rw [List.mem_range] at hk
    rw [hmt] at *
    exact congrArg₂ _ (List.map_congr_left fun n _ => hg k n)
      (flatMap_eq fun m hm => List.map_congr_left fun n _ => hs k m hk (mem_span.mp hm) n)
  | true =>
    rw [if_pos rfl, if_pos rfl, flatMap_flatOps_rev]
    refine flatMap_eq fun k hk => ?_
    rw [List.mem_reverse, List.mem_range] at hk
    rw [hmt] at *
    exact congrArg₂ _ (flatMap_eq fun m hm => List.map_congr_left fun n _ =>
      hs k m hk (mem_span.mp (List.mem_reverse.mp hm)) n) (List.map_congr_left fun n _ => hg k n)

theorem pzungqr_eq (hA : A.Al b) (hC : C.Al b) (hm : C.d.m = A.d.m) :
    pzungqr (α := α) A T C = (flatOps A.d.mt A.d.nt).reverse.flatMap
      fun o => updL false T.d.mb id A T C (span o.col C.d.nt) o := by
  have hmt : C.d.mt = A.d.mt := by rw [hA.mt_eq, hC.mt_eq, hm]
  rw [flatMap_flatOps_rev]
  unfold pzungqr
  refine flatMap_eq fun k hk => ?_
  rw [List.mem_reverse, List.mem_range] at hk
  rw [hmt]
  refine congrArg₂ _ (flatMap_eq fun m hm => List.map_congr_left fun n _ => ?_) (List.map_congr_left fun n _ => ?_)
  · have hm := mem_span.mp (List.mem_reverse.mp hm)
    have h1 : A.d.mview k = b := mview_full hA (m := m) (by omega) (by omega)
    have h1' : C.d.mview k = b := mview_full hC (m := m) (by omega) (by omega)
    have h2 := nview_le hA (k := k) (by omega)
    show _ = stmqrL false false (C.d.mview k) (C.d.nview n) (C.d.mview m) (min (A.d.mview k + A.d.mview m) (A.d.nview k))
      T.d.mb (C.at' k n) (C.at' m n) (A.at' m k) (T.at' m k)
    rw [h1, h1', hC.mb, Nat.min_eq_right (by omega)]
  · show unmqrL _ _ _ _ _ _ _ _ = unmqrL _ _ _ (min (A.d.mview k) (A.d.nview k)) _ _ _ _
    rw [Nat.min_comm]

/-- With `k = min(m, n)` the reflectors of an `m` by `k` matrix are those of the `m` by `n` matrix. -/
theorem qAll_min {mm na ib : Nat} {off : Nat → Nat} (hb : 0 < b) {ops : List Op} {s : Store (M × Nat × Nat) α}
    (ho : OpsOK (ceilDiv mm b) (ceilDiv na b) ops) :
    qAll b mm (min mm na) ib off A T s ops = qAll b mm na ib off A T s ops := by
  have key : ∀ l ts, RowInv ts → LegalOps (ceilDiv mm b) ts l → (∀ o ∈ l, o.col < min (ceilDiv mm b) (ceilDiv na b)) →
      ∀ o ∈ l, opK b mm (min mm na) o = opK b mm na o := by
    intro l
    induction l with
    | nil => intro _ _ _ _ o h; cases h
    | cons o' l ih =>
      intro ts hI hL hc o ho'
      rcases List.mem_cons.mp ho' with rfl | ho'
      · have h1 := hL.1
        have h2 := hc o List.mem_cons_self
        cases o with
        | ge j k =>
          have h3 : j ≤ k := h1.1
          have h4 := h1.2.1
          rw [lt_ceilDiv hb] at h4
          have h5 : j * b ≤ k * b := Nat.mul_le_mul_right b h3
          simp only [opK, tdim]
          omega
        | ts j m k =>
          have h3 : j ≤ k := h1.1
          have h3' : k < m := h1.2.1
          have h4 := h1.2.2.1
          rw [lt_ceilDiv hb] at h4
          have h5 : (j + 1) * b ≤ m * b := Nat.mul_le_mul_right b (by omega)
          rw [Nat.add_mul] at h5
          simp only [opK, tdim]
          omega
        | tt j m k =>
          have h3 : j ≤ k := h1.1
          have h3' : k < m := h1.2.1
          have h4 := h1.2.2.1
          rw [lt_ceilDiv hb] at h4
          have h5 : (j + 1) * b ≤ m * b := Nat.mul_le_mul_right b (by omega)
          rw [Nat.add_mul] at h5
          simp only [opK, tdim]
          omega
      · exact ih _ (rowInv_run hI hL.1) hL.2 (fun o h => hc o (List.mem_cons_of_mem _ h)) o ho'
  unfold qAll
  refine congrArg List.prod (List.map_congr_left fun o h => ?_)
  unfold opQ opq
  rw [key ops init rowInv_init ho.legal ho.col o h]

end

end Verif.Qr

/-
Triangular band solve: compute/pztbsm.c.
-/
import Verif.Trsm
import Verif.Pbtrf

namespace Verif.Tile

open Verif.Layout Finset

universe u v

variable {M : Type u} {α : Type v}

section
variable [CommRing α] [StarRing α] [DecidableEq α]

/-- `plasma_pztbsm` (compute/pztbsm.c:27-211) with `ipiv == NULL`.  The leading-dimension
arguments are those of the tiles passed; solves from the right are not implemented (line 205). -/
def pztbsm (dv : α → α → α) (sd : Side) (u : Uplo) (t : Trans) (d : Diag) (alpha : α)
    (A B : TMat M) : List (TTask (M × Nat × Nat) α) :=
  if sd = .left then
    if u = .upper then
      if t = .noTrans then
        (List.range B.d.mt).flatMap fun k =>
          ((List.range B.d.nt).map fun n =>
            coreTrsm dv sd u t d (B.d.mview (B.d.mt-k-1)) (B.d.nview n) (if k = 0 then alpha else 1)
              (A.at' (B.d.mt-k-1) (B.d.mt-k-1)) (B.at' (B.d.mt-k-1) n)) ++
          (span (B.d.mt-k-1+1-A.d.kut) (B.d.mt-k-1)).flatMap fun m => (List.range B.d.nt).map fun n =>
            coreGemm .noTrans .noTrans B.d.mb (B.d.nview n) (B.d.mview (B.d.mt-k-1)) (-1)
              (A.at' m (B.d.mt-k-1)) (B.at' (B.d.mt-k-1) n) (if k = 0 then alpha else 1) (B.at' m n)
      else
        (List.range B.d.mt).flatMap fun k =>
          ((List.range B.d.nt).map fun n =>
            coreTrsm dv sd u t d (B.d.mview k) (B.d.nview n) (if k = 0 then alpha else 1)
              (A.at' k k) (B.at' k n)) ++
          (span (k+1) (min A.d.mt (k+A.d.kut))).flatMap fun m => (List.range B.d.nt).map fun n =>
            coreGemm t .noTrans (B.d.mview m) (B.d.nview n) B.d.mb (-1)
              (A.at' k m) (B.at' k n) (if k = 0 then alpha else 1) (B.at' m n)
    else
      if t = .noTrans then
        (List.range B.d.mt).flatMap fun k =>
          ((List.range B.d.nt).map fun n =>
            coreTrsm dv sd u t d (B.d.mview k) (B.d.nview n) (if k = 0 then alpha else 1)
              (A.at' k k) (B.at' k n)) ++
          (span (k+1) (min (k+A.d.klt) A.d.mt)).flatMap fun m => (List.range B.d.nt).map fun n =>
            coreGemm .noTrans .noTrans (B.d.mview m) (B.d.nview n) B.d.mb (-1)
              (A.at' m k) (B.at' k n) (if k = 0 then alpha else 1) (B.at' m n)
      else
        (List.range B.d.mt).flatMap fun k =>
          ((span (B.d.mt-k-1+1) (min (B.d.mt-k-1+A.d.klt) A.d.mt)).flatMap fun m =>
            (List.range B.d.nt).map fun n =>
              coreGemm t .noTrans (B.d.mview (B.d.mt-k-1)) (B.d.nview n) (B.d.mview m) (-1)
                (A.at' m (B.d.mt-k-1)) (B.at' m n) (if k = 0 then alpha else 1) (B.at' (B.d.mt-k-1) n)) ++
          (List.range B.d.nt).map fun n =>
            coreTrsm dv sd u t d (B.d.mview (B.d.mt-k-1)) (B.d.nview n) (if k = 0 then alpha else 1)
              (A.at' (B.d.mt-k-1) (B.d.mt-k-1)) (B.at' (B.d.mt-k-1) n)
  else []

/-- The matrix with its tiles outside the band replaced by zero. -/
def bandT2 (b kt : Nat) (X : Nat → Nat → α) (r c : Nat) : α :=
  if r / b < c / b + kt ∧ c / b < r / b + kt then X r c else 0

/-! ### Steps that update the remaining blocks -/

/-- Blocks updated in step `k`, in order of creation. -/
def tbJs (u : Uplo) (t : Trans) (kt K k : Nat) : List Nat :=
  if u = .upper ∧ t = .noTrans then (span (K-k-1+1-kt) (K-k-1)).map (fun m => K - 1 - m)
  else span (k+1) (min K (k+kt))

theorem mem_tbJs {u : Uplo} {t : Trans} {kt K k : Nat} (hk : k < K) (hkt : 0 < kt) {j : Nat} :
    j ∈ tbJs u t kt K k ↔ k < j ∧ j < K ∧ j < k + kt := by
  unfold tbJs
  split
  · simp only [List.mem_map, mem_span]
    constructor
    · rintro ⟨m, h, rfl⟩; omega
    · rintro h; exact ⟨K - 1 - j, by omega, by omega⟩
  · rw [mem_span]; omega

theorem nodup_tbJs {u : Uplo} {t : Trans} {kt K k : Nat} : (tbJs u t kt K k).Nodup := by
  unfold tbJs
  split
  · refine List.Nodup.map_on ?_ nodup_span
    intro x hx y hy h
    rw [mem_span] at hx hy
    omega
  · exact nodup_span

/-- Tiles handled in step `k`, in order of creation (compare `trIdx`). -/
def tbIdx (u : Uplo) (t : Trans) (kt K Q k : Nat) : List (Nat × Nat) :=
  (List.range Q).map (fun q => (k, q)) ++ (tbJs u t kt K k).flatMap fun j => (List.range Q).map fun q => (j, q)

theorem mem_tbIdx {u : Uplo} {t : Trans} {kt K Q k : Nat} (hk : k < K) (hkt : 0 < kt) {p : Nat × Nat} :
    p ∈ tbIdx u t kt K Q k ↔ k ≤ p.1 ∧ p.1 < K ∧ p.1 < k + kt ∧ p.2 < Q := by
  obtain ⟨j, q⟩ := p
  simp only [tbIdx, List.mem_append, List.mem_map, List.mem_flatMap, List.mem_range, mem_tbJs hk hkt,
    Prod.mk.injEq]
  constructor
  · rintro (⟨x, hx, rfl, rfl⟩ | ⟨y, hy, x, hx, rfl, rfl⟩) <;> omega
  · rintro ⟨h1, h2, h3, h4⟩
    by_cases hj : k = j
    · exact Or.inl ⟨q, h4, hj, rfl⟩
    · exact Or.inr ⟨j, by omega, q, h4, rfl, rfl⟩

theorem tbIdx_pairwise {u : Uplo} {t : Trans} {kt K Q k : Nat} (hk : k < K) (hkt : 0 < kt) :
    (tbIdx u t kt K Q k).Pairwise (TrBefore k) := by
  have hrow : ∀ j, ((List.range Q).map fun q => (j, q)).Pairwise (TrBefore k) := by
    intro j
    rw [List.pairwise_map]
    exact List.Pairwise.imp (fun h => ⟨fun he => h (Prod.mk.inj he).2, fun he => h he.2.symm⟩)
      List.nodup_range
  unfold tbIdx
  rw [List.pairwise_append]
  refine ⟨hrow k, ?_, ?_⟩
  · rw [List.pairwise_flatMap]
    refine ⟨fun j _ => hrow j, ?_⟩
    refine List.Pairwise.imp_of_mem ?_ (nodup_tbJs (u := u) (t := t) (kt := kt) (K := K) (k := k))
    intro a b ha hb hab x hx y hy
    rw [mem_tbJs hk hkt] at hb
    obtain ⟨_, _, rfl⟩ := List.mem_map.mp hx
    obtain ⟨_, _, rfl⟩ := List.mem_map.mp hy
    exact ⟨fun he => hab (Prod.mk.inj he).1, fun he => by have := he.1; simp only at this; omega⟩
  · intro x hx y hy
    obtain ⟨_, _, rfl⟩ := List.mem_map.mp hx
    obtain ⟨j, hj, hy⟩ := List.mem_flatMap.mp hy
    obtain ⟨_, _, rfl⟩ := List.mem_map.mp hy
    rw [mem_tbJs hk hkt] at hj
    exact ⟨fun he => by have := (Prod.mk.inj he).1; omega,
      fun he => by have := he.1; simp only at this; omega⟩

/-- Tasks of step `k`. -/
def tbStep (dv : α → α → α) (u : Uplo) (t : Trans) (d : Diag) (alpha : α)
    (A B : TMat M) (b Mm Nn kt k : Nat) : List (TTask (M × Nat × Nat) α) :=
  (tbIdx u t kt (ceilDiv Mm b) (ceilDiv Nn b) k).flatMap fun p =>
    [trTask dv .left u t d alpha A B b Mm Nn k p]

variable {dv : α → α → α} {u : Uplo} {t : Trans} {d : Diag} {alpha : α} {A B : TMat M}
  {b Mm Nn kt : Nat}

theorem pztbsm_right_eq (hA : A.Al b) (hB : B.Al b) (hAm : A.d.m = Mm) (hm : B.d.m = Mm) (hn : B.d.n = Nn)
    (hut : u = .upper ∨ t = .noTrans) (hk0 : 0 < bkt u A.d) :
    pztbsm dv .left u t d alpha A B =
      (List.range (ceilDiv Mm b)).flatMap (tbStep dv u t d alpha A B b Mm Nn (bkt u A.d)) := by
  have hmv : ∀ m, m < ceilDiv Mm b → B.d.mview m = tdim Mm b m := fun m h => by
    rw [hB.mview (by rw [hB.mt_eq, hm]; exact h), hm]
  have hnv : ∀ m, m < ceilDiv Nn b → B.d.nview m = tdim Nn b m := fun m h => by
    rw [hB.nview (by rw [hB.nt_eq, hn]; exact h), hn]
  have hmt : B.d.mt = ceilDiv Mm b := by rw [hB.mt_eq, hm]
  have hnt : B.d.nt = ceilDiv Nn b := by rw [hB.nt_eq, hn]
  have hamt : A.d.mt = ceilDiv Mm b := by rw [hA.mt_eq, hAm]
  unfold pztbsm
  rw [hmt, hnt, hB.mb, hamt]
  cases u <;> cases t
  all_goals first
    | (exfalso; simp at hut; done)
    | skip
  all_goals
    simp only [if_true, reduceCtorEq, if_false]
    refine List.flatMap_congr fun k hk => ?_
    rw [List.mem_range] at hk
    simp only [tbStep, ← List.map_eq_flatMap, tbIdx, tbJs, bkt, if_true, if_false, reduceCtorEq, and_true, and_false,
      List.map_append, List.map_map, List.map_flatMap, List.map_cons, List.flatMap_map, Nat.min_comm (k + A.d.klt)]
    refine congrArg₂ _ (List.map_congr_left fun n hn => ?_)
        (List.flatMap_congr fun m hm => List.map_congr_left fun n hn => ?_)
  all_goals
    simp only [List.mem_range, mem_span] at *
    simp only [bkt, if_true, if_false, reduceCtorEq] at hk0
    simp only [Function.comp, trTask, trB, trLa, trGa, trGb, trFwd, opLow, ord, if_true, if_false,
      reduceCtorEq, decide_true, decide_false, Bool.not_true, Bool.not_false, beq_self_eq_true,
      and_true, and_false, ne_eq, not_true_eq_false, not_false_eq_true, Bool.false_eq_true,
      Bool.true_beq, Bool.false_beq]
  all_goals
    try simp only [show ceilDiv Mm b - k - 1 = ceilDiv Mm b - 1 - k by omega,
      show ceilDiv Nn b - k - 1 = ceilDiv Nn b - 1 - k by omega]
    first
      | rw [if_neg (show ¬ m = k by omega)]
      | rw [if_neg (show ¬ ceilDiv Mm b - 1 - m = k by omega), show ceilDiv Mm b - 1 - (ceilDiv Mm b - 1 - m) = m by omega]
      | skip
    congr 1 <;> first
      | exact hmv _ (by omega)
      | exact hnv _ (by omega)
      | (symm; apply tdim_full (K := ceilDiv Mm b) hB.pos rfl; omega)
      | (symm; apply tdim_full (K := ceilDiv Nn b) hB.pos rfl; omega)

theorem tbStep_frame {k : Nat} (hk : k < ceilDiv Mm b) (hkt : 0 < kt) (s : Store (M × Nat × Nat) α)
    {x : M × Nat × Nat}
    (hx : ∀ p : Nat × Nat, k ≤ p.1 → p.1 < ceilDiv Mm b → p.1 < k + kt →
      x ≠ trB .left (trFwd .left u t) (ceilDiv Mm b) B p) :
    texec (tbStep dv u t d alpha A B b Mm Nn kt k) s x = s x :=
  par_frame (o := trB .left (trFwd .left u t) (ceilDiv Mm b) B) (fun _ _ => trTask_writes (sd := .left)) s
    (fun p hp => by rw [mem_tbIdx hk hkt] at hp; exact hx p hp.1 hp.2.1 hp.2.2.1)

/-- Tiles inside the band receive the same value as in the dense algorithm. -/
theorem tbStep_tile (hab : A.id ≠ B.id) {k : Nat} (hk : k < ceilDiv Mm b) (hkt : 0 < kt)
    (s : Store (M × Nat × Nat) α) {p : Nat × Nat} (h1 : k ≤ p.1) (h2 : p.1 < ceilDiv Mm b)
    (h4 : p.1 < k + kt) (h3 : p.2 < ceilDiv Nn b) {s' : Store (M × Nat × Nat) α}
    (hs1 : s' (trB .left (trFwd .left u t) (ceilDiv Mm b) B p) =
      s (trB .left (trFwd .left u t) (ceilDiv Mm b) B p))
    (hs2 : ∀ x, x.1 = A.id → s' x = s x)
    (hs3 : k ≠ p.1 → s' (trB .left (trFwd .left u t) (ceilDiv Mm b) B (k, p.2)) =
      texec (tbStep dv u t d alpha A B b Mm Nn kt k) s
        (trB .left (trFwd .left u t) (ceilDiv Mm b) B (k, p.2))) :
    texec (tbStep dv u t d alpha A B b Mm Nn kt k) s
        (trB .left (trFwd .left u t) (ceilDiv Mm b) B p) =
      (trTask dv .left u t d alpha A B b Mm Nn k p).run s'
        (trB .left (trFwd .left u t) (ceilDiv Mm b) B p) := by
  have hmem : p ∈ tbIdx u t kt (ceilDiv Mm b) (ceilDiv Nn b) k := (mem_tbIdx hk hkt).mpr ⟨h1, h2, h4, h3⟩
  have hpw : (tbIdx u t kt (ceilDiv Mm b) (ceilDiv Nn b) k).Pairwise
      (fun p q => TrBefore k p q ∧ p.1 < ceilDiv Mm b ∧ q.1 < ceilDiv Mm b) :=
    List.Pairwise.imp_of_mem
      (fun ha hb h => ⟨h, ((mem_tbIdx hk hkt).mp ha).2.1, ((mem_tbIdx hk hkt).mp hb).2.1⟩) (tbIdx_pairwise hk hkt)
  refine Eq.trans (par_final (o := trB .left (trFwd .left u t) (ceilDiv Mm b) B)
    (D := fun p x => x.1 = A.id ∨ x = trB .left (trFwd .left u t) (ceilDiv Mm b) B (k, p.2) ∨
        x = trB .left (trFwd .left u t) (ceilDiv Mm b) B p) hpw
    (fun p => Or.inr (Or.inr rfl)) ?_ (fun _ _ => trTask_within (sd := .left))
    (fun _ _ => trTask_writes (sd := .left)) s hmem (s' := s') hs1 ?_) ?_
  · rintro p q ⟨⟨hne, hlt⟩, hp, hq⟩ (h | h | h)
    · rw [trB_id] at h; exact hab h.symm
    · have := trB_inj hq hk h
      exact hlt ⟨by rw [this], by rw [this]⟩
    · exact hne (trB_inj hq hp h).symm
  · rintro x (h | rfl | rfl) hx
    · rw [hs2 x h]; symm
      refine tbStep_frame hk hkt s fun p _ _ _ he => ?_
      rw [he, trB_id] at h; exact hab h.symm
    · exact hs3 fun he => hx (by rw [he])
    · exact absurd rfl hx
  · simp only [texec_cons, texec_nil]

theorem tbStep_eq (hab : A.id ≠ B.id) {k : Nat} (hk : k < ceilDiv Mm b) (hkt : 0 < kt)
    (s : Store (M × Nat × Nat) α) {p : Nat × Nat} (h1 : k ≤ p.1) (h2 : p.1 < ceilDiv Mm b)
    (h4 : p.1 < k + kt) (h3 : p.2 < ceilDiv Nn b) :
    texec (tbStep dv u t d alpha A B b Mm Nn kt k) s (trB .left (trFwd .left u t) (ceilDiv Mm b) B p) =
      texec (trStep dv .left u t d alpha A B b Mm Nn k) s (trB .left (trFwd .left u t) (ceilDiv Mm b) B p) := by
  classical
  have hdiag : ∀ q, q < ceilDiv Nn b →
      texec (tbStep dv u t d alpha A B b Mm Nn kt k) s (trB .left (trFwd .left u t) (ceilDiv Mm b) B (k, q)) =
      texec (trStep dv .left u t d alpha A B b Mm Nn k) s (trB .left (trFwd .left u t) (ceilDiv Mm b) B (k, q)) := by
    intro q hq
    have e2 := trStep_tile (sd := .left) (u := u) (t := t) (d := d) (dv := dv) (alpha := alpha) (A := A) (B := B)
      (b := b) (Mm := Mm) (Nn := Nn) hab (k := k) hk s (p := (k, q)) le_rfl hk hq (s' := s) rfl (fun _ _ => rfl)
      (fun h => absurd rfl h)
    have e1 := tbStep_tile (u := u) (t := t) (d := d) (dv := dv) (alpha := alpha) (A := A) (B := B)
      (b := b) (Mm := Mm) (Nn := Nn) hab (k := k) hk hkt s (p := (k, q)) le_rfl hk (by simp only; omega) hq (s' := s)
      rfl (fun _ _ => rfl) (fun h => absurd rfl h)
    exact e1.trans e2.symm
  obtain ⟨j, q⟩ := p
  by_cases hj : j = k
  · subst hj; exact hdiag q h3
  · have hne : trB .left (trFwd .left u t) (ceilDiv Mm b) B (k, q) ≠ trB .left (trFwd .left u t) (ceilDiv Mm b) B (j, q) := by
      intro he; have := congrArg Prod.fst (trB_inj (sd := .left) hk h2 he); simp only at this; omega
    set s' : Store (M × Nat × Nat) α := fun x => if x = trB .left (trFwd .left u t) (ceilDiv Mm b) B (k, q) then
      texec (trStep dv .left u t d alpha A B b Mm Nn k) s x else s x with hs'
    have a1 : s' (trB .left (trFwd .left u t) (ceilDiv Mm b) B (j, q)) =
      s (trB .left (trFwd .left u t) (ceilDiv Mm b) B (j, q)) := if_neg (Ne.symm hne)
    have a2 : ∀ x, x.1 = A.id → s' x = s x := by
      intro x hx
      rw [hs']; simp only
      rw [if_neg]; intro he; rw [he, trB_id] at hx; exact hab hx.symm
    have a3 : s' (trB .left (trFwd .left u t) (ceilDiv Mm b) B (k, q)) =
      texec (trStep dv .left u t d alpha A B b Mm Nn k) s (trB .left (trFwd .left u t) (ceilDiv Mm b) B (k, q)) := if_pos rfl
    have e2 := trStep_tile (sd := .left) (u := u) (t := t) (d := d) (dv := dv) (alpha := alpha) (A := A) (B := B)
      (b := b) (Mm := Mm) (Nn := Nn) hab (k := k) hk s (p := (j, q)) h1 h2 h3 (s' := s') a1 a2 (fun _ => a3)
    have e1 := tbStep_tile (u := u) (t := t) (d := d) (dv := dv) (alpha := alpha) (A := A) (B := B)
      (b := b) (Mm := Mm) (Nn := Nn) hab (k := k) hk hkt s (p := (j, q)) h1 h2 h4 h3 (s' := s') a1 a2
      (fun _ => a3.trans (hdiag q h3).symm)
    exact e1.trans e2.symm

theorem tbSteps_A (hab : A.id ≠ B.id) (hkt : 0 < kt) {k : Nat} (hk : k ≤ ceilDiv Mm b)
    (s : Store (M × Nat × Nat) α) :
    A.el (texec ((List.range k).flatMap (tbStep dv u t d alpha A B b Mm Nn kt)) s) = A.el s := by
  funext r c
  simp only [TMat.el]
  induction k with
  | zero => rfl
  | succ k ih =>
    rw [texec_range_succ, tbStep_frame (by omega) hkt, ih (by omega)]
    intro p _ _ _ he
    have := congrArg Prod.fst he
    rw [trB_id] at this
    exact hab this

end

section
variable [Field α] [StarRing α] [DecidableEq α] {dv : α → α → α} {u : Uplo} {t : Trans}
  {d : Diag} {A B : TMat M} {b Mm Nn kt : Nat}

omit [DecidableEq α] in
theorem op_bandT2 (hkt : 0 < kt) (X : Nat → Nat → α) (r l : Nat) :
    opE t (trE u d (bandT2 b kt X)) r l =
      if r / b < l / b + kt ∧ l / b < r / b + kt then opE t (trE u d X) r l else 0 := by
  have h : ∀ r l, trE u d (bandT2 b kt X) r l =
      if r / b < l / b + kt ∧ l / b < r / b + kt then trE u d X r l else 0 := by
    intro r l
    unfold trE bandT2
    by_cases e : r = l
    · subst e; simp [hkt]
    · simp only [e, if_false]
      split_ifs <;> first | rfl | simp_all
  cases t <;> simp only [opE, h]
  · split_ifs <;> first | rfl | (exfalso; omega)
  · split_ifs <;> first | rfl | (exfalso; omega) | simp

/-- Right-looking variants. -/
theorem pztbsm_right_el (hdv : IsDiv dv) (hA : A.Al b) (hB : B.Al b) (hab : A.id ≠ B.id) (hAm : A.d.m = Mm)
    (hm : B.d.m = Mm) (hn : B.d.n = Nn) (hut : u = .upper ∨ t = .noTrans) (hkt : 0 < bkt u A.d)
    (s : Store (M × Nat × Nat) α) (hd : ∀ i, i < Mm → trE u d (A.el s) i i ≠ 0) :
    ∀ r c, r < Mm → c < Nn →
      ∑ l ∈ range Mm, opE t (trE u d (bandT2 b (bkt u A.d) (A.el s))) r l *
          B.el (texec (pztbsm dv .left u t d 1 A B) s) l c = B.el s r c := by
  have hb := hB.pos
  rw [pztbsm_right_eq hA hB hAm hm hn hut hkt]
  set kt := bkt u A.d with hktd
  set E : Nat → Nat → Nat → α := fun k r c =>
    B.el (texec ((List.range k).flatMap (tbStep dv u t d 1 A B b Mm Nn kt)) s) r c with hE
  have hAel : ∀ k, k < ceilDiv Mm b →
      A.el (texec ((List.range k).flatMap (tbStep dv u t d 1 A B b Mm Nn kt)) s) = A.el s :=
    fun k hk => tbSteps_A hab hkt hk.le s
  have hgb : ∀ k, trGb .left t (1 : α) k = 1 := fun k => by simp [trGb]
  have hga : trGa dv .left t (1 : α) = -1 := by simp [trGa]
  have hla : ∀ k, trLa .left t (1 : α) k = 1 := fun k => by simp [trLa]
  -- elements inside the band
  have hin : ∀ (S : Store (M × Nat × Nat) α) k, k < ceilDiv Mm b → ∀ j, k ≤ j → j < ceilDiv Mm b → j < k + kt →
      ∀ r c, c < Nn → r / b = ord (trFwd .left u t) (ceilDiv Mm b) j →
      B.el (texec (tbStep dv u t d 1 A B b Mm Nn kt k) S) r c =
        B.el (texec (trStep dv .left u t d 1 A B b Mm Nn k) S) r c := by
    intro S k hk j h1 h2 h3 r c hc hrj
    have e := fun S : Store (M × Nat × Nat) α => trEl_tile (sd := .left) hB S (K := ceilDiv Mm b) (c := c) hrj
    simp only [trEl, if_true] at e
    have hcq : c / b < ceilDiv Nn b := by
      rw [lt_ceilDiv hb]; have := Nat.div_mul_le_self c b; omega
    rw [e, e, tbStep_eq hab hk hkt S (p := (j, c / b)) h1 h2 h3 hcq]
  have hout : ∀ (S : Store (M × Nat × Nat) α) k, k < ceilDiv Mm b → ∀ j, j < ceilDiv Mm b → j < k ∨ k + kt ≤ j →
      ∀ r c, r / b = ord (trFwd .left u t) (ceilDiv Mm b) j →
      B.el (texec (tbStep dv u t d 1 A B b Mm Nn kt k) S) r c = B.el S r c := by
    intro S k hk j hj h r c hrj
    have e := fun S : Store (M × Nat × Nat) α => trEl_tile (sd := .left) hB S (K := ceilDiv Mm b) (c := c) hrj
    simp only [trEl, if_true] at e
    rw [e, e, tbStep_frame hk hkt S]
    intro p h1 h2 h3 he
    have := congrArg Prod.fst (trB_inj (sd := .left) hj h2 he)
    simp only at this; omega
  have hTin : ∀ {r l j k}, r / b = ord (trFwd .left u t) (ceilDiv Mm b) j →
      l / b = ord (trFwd .left u t) (ceilDiv Mm b) k → k ≤ j → j < ceilDiv Mm b → j < k + kt →
      opE t (trE u d (bandT2 b kt (A.el s))) r l = opE t (trE u d (A.el s)) r l := by
    intro r l j k hr hl h1 h2 h3
    rw [op_bandT2 hkt, if_pos]
    rw [hr, hl]; unfold ord; split <;> omega
  have hTout : ∀ {r l j k}, r / b = ord (trFwd .left u t) (ceilDiv Mm b) j →
      l / b = ord (trFwd .left u t) (ceilDiv Mm b) k → j < ceilDiv Mm b → k + kt ≤ j →
      opE t (trE u d (bandT2 b kt (A.el s))) r l = 0 := by
    intro r l j k hr hl h2 h3
    rw [op_bandT2 hkt, if_neg]
    rw [hr, hl]; unfold ord; split <;> omega
  have := trsm_math (fwd := trFwd .left u t) (N := Mm) (P := Nn) hb
    (T := opE t (trE u d (bandT2 b kt (A.el s)))) (E := E) (la := fun _ => 1) (gb := fun _ => 1)
    (ga := fun _ => -1) (alpha := 1) rfl (by simp) (by simp)
    (by
      intro k hk r c hr hc hrk
      simp only [hE, texec_range_succ]
      have := trStep_solve (sd := .left) (Mm := Mm) (Nn := Nn) hdv hA hB hab hk hr hc hrk
        (texec ((List.range k).flatMap (tbStep dv u t d 1 A B b Mm Nn kt)) s)
        (by rw [hAel k hk]; exact hd) (by rw [hla]; exact one_ne_zero)
      rw [hAel k hk, hla] at this
      simp only [trN, trT, trEl, if_true] at this
      rw [← this]
      refine bsum_congr fun l hl hlb => ?_
      rw [hTin hrk hlb le_rfl hk (by omega), hin _ k hk k le_rfl hk (by omega) l c hc hlb])
    (by
      intro k hk j hkj hj r c hr hc hrj
      simp only [hE, texec_range_succ]
      by_cases hjk : j < k + kt
      · have := trStep_upd (sd := .left) (Mm := Mm) (Nn := Nn) (dv := dv) (d := d) (alpha := (1 : α)) hA hB hab hkj hj hr hc hrj
          (texec ((List.range k).flatMap (tbStep dv u t d 1 A B b Mm Nn kt)) s)
        rw [hAel k hk, hgb, hga] at this
        simp only [trN, trT, trEl, if_true] at this
        rw [hin _ k hk j hkj.le hj hjk r c hc hrj, this]
        congr 2
        refine bsum_congr fun l hl hlb => ?_
        rw [hTin hrj hlb hkj.le hj hjk, hin _ k hk k le_rfl hk (by omega) l c hc hlb]
      · rw [hout _ k hk j hj (Or.inr (by omega)) r c hrj]
        rw [show bsum Mm b (ord (trFwd .left u t) (ceilDiv Mm b) k) _ = bsum Mm b (ord (trFwd .left u t) (ceilDiv Mm b) k)
          (fun _ => (0 : α)) from bsum_congr fun l hl hlb => by rw [hTout hrj hlb hj (by omega), zero_mul]]
        simp [bsum])
    (by
      intro k hk j hjk r c hr hc hrj
      simp only [hE, texec_range_succ]
      exact hout _ k hk j (by omega) (Or.inl hjk) r c hrj)
    (by
      intro r l hr hl h
      exact op_tri_zero (by simpa [trFwd] using h))
  intro r c hr hc
  have := this r c hr hc
  rw [one_mul] at this
  exact this

end

/-! ### Left-looking variant -/

theorem sum_bspan {β : Type v} [AddCommMonoid β] (lo hi : Nat) (g : Nat → β) :
    ((span lo hi).map g).sum = ∑ m ∈ Finset.Ico lo hi, g m := rfl

section
variable [CommRing α] [StarRing α] [DecidableEq α] {dv : α → α → α} {t : Trans} {d : Diag}
  {A B : TMat M} {b Mm Nn kt : Nat}

/-- Updates of block `κ` with the solved block `m`. -/
def tlRow (t : Trans) (A B : TMat M) (b Mm Nn : Nat) (be : α) (κ m : Nat) : List (TTask (M × Nat × Nat) α) :=
  (List.range (ceilDiv Nn b)).flatMap fun n =>
    [coreGemm t .noTrans (tdim Mm b κ) (tdim Nn b n) (tdim Mm b m) (-1) (A.at' m κ) (B.at' m n) be (B.at' κ n)]

/-- Tasks of step `k`, for block `κ = K-1-k`. -/
def tlStep (dv : α → α → α) (t : Trans) (d : Diag) (alpha : α) (A B : TMat M) (b Mm Nn kt k : Nat) :
    List (TTask (M × Nat × Nat) α) :=
  ((span (ceilDiv Mm b - 1 - k + 1) (min (ceilDiv Mm b - 1 - k + kt) (ceilDiv Mm b))).flatMap
    (tlRow t A B b Mm Nn (if k = 0 then alpha else 1) (ceilDiv Mm b - 1 - k))) ++
  (List.range (ceilDiv Nn b)).flatMap fun n =>
    [coreTrsm dv .left .lower t d (tdim Mm b (ceilDiv Mm b - 1 - k)) (tdim Nn b n) (if k = 0 then alpha else 1)
      (A.at' (ceilDiv Mm b - 1 - k) (ceilDiv Mm b - 1 - k)) (B.at' (ceilDiv Mm b - 1 - k) n)]

theorem pztbsm_left_eq (hA : A.Al b) (hB : B.Al b) (hAm : A.d.m = Mm) (hm : B.d.m = Mm) (hn : B.d.n = Nn)
    (ht : t ≠ .noTrans) {alpha : α} :
    pztbsm dv .left .lower t d alpha A B =
      (List.range (ceilDiv Mm b)).flatMap (tlStep dv t d alpha A B b Mm Nn A.d.klt) := by
  have hmv : ∀ m, m < ceilDiv Mm b → B.d.mview m = tdim Mm b m := fun m h => by
    rw [hB.mview (by rw [hB.mt_eq, hm]; exact h), hm]
  have hnv : ∀ m, m < ceilDiv Nn b → B.d.nview m = tdim Nn b m := fun m h => by
    rw [hB.nview (by rw [hB.nt_eq, hn]; exact h), hn]
  have hmt : B.d.mt = ceilDiv Mm b := by rw [hB.mt_eq, hm]
  have hnt : B.d.nt = ceilDiv Nn b := by rw [hB.nt_eq, hn]
  have hamt : A.d.mt = ceilDiv Mm b := by rw [hA.mt_eq, hAm]
  unfold pztbsm
  rw [hmt, hnt, hamt]
  simp only [if_true, reduceCtorEq, if_false, ht]
  refine List.flatMap_congr fun k hk => ?_
  rw [List.mem_range] at hk
  simp only [show ceilDiv Mm b - k - 1 = ceilDiv Mm b - 1 - k by omega, tlStep, ← List.map_eq_flatMap]
  refine congrArg₂ _ (List.flatMap_congr fun m hm => ?_) (List.map_congr_left fun n hn => ?_)
  · unfold tlRow
    rw [← List.map_eq_flatMap]
    refine List.map_congr_left fun n hn => ?_
    rw [mem_span] at hm
    rw [List.mem_range] at hn
    rw [hmv _ (by omega), hnv _ hn, hmv _ (by omega)]
  · rw [List.mem_range] at hn
    rw [hmv _ (by omega), hnv _ hn]

theorem tlRow_writes {κ m : Nat} {be : α} :
    Writes (fun x => ∃ n, x = B.at' κ n) (tlRow t A B b Mm Nn be κ m) :=
  Writes.flatMap fun n _ => (writes_op2 (W := fun x => x = B.at' κ n) rfl).mono fun _ hx => ⟨n, hx⟩

theorem tlStep_writes {k : Nat} {alpha : α} :
    Writes (fun x => ∃ n, x = B.at' (ceilDiv Mm b - 1 - k) n) (tlStep dv t d alpha A B b Mm Nn kt k) :=
  (Writes.flatMap fun _ _ => tlRow_writes).append
    (Writes.flatMap fun n _ =>
      (writes_op1 (W := fun x => x = B.at' (ceilDiv Mm b - 1 - k) n) rfl).mono fun _ hx => ⟨n, hx⟩)

theorem tlRow_el (hab : A.id ≠ B.id) {κ m n i j : Nat} (hm : m ≠ κ) (hn : n < ceilDiv Nn b)
    (hij : box (tdim Mm b κ) (tdim Nn b n) i j) (s : Store (M × Nat × Nat) α) :
    texec (tlRow t A B b Mm Nn 1 κ m) s (B.at' κ n) i j = s (B.at' κ n) i j -
      ∑ l ∈ range (tdim Mm b m), opE t (s (A.at' m κ)) i l * s (B.at' m n) l j := by
  unfold tlRow
  rw [par (body := fun n => [coreGemm t .noTrans (tdim Mm b κ) (tdim Nn b n) (tdim Mm b m) (-1) (A.at' m κ)
      (B.at' m n) 1 (B.at' κ n)]) (o := fun n => B.at' κ n) List.nodup_range
    (fun p _ q _ h => (TMat.at'_inj.mp h).2) ?_ (fun p _ => writes_op2 rfl) s (List.mem_range.mpr hn)]
  · rw [texec_cons, texec_nil, gemm_run s hij]
    simp only [opE]
    ring
  · intro p _
    refine gemm_within (Or.inl fun q _ he => hab (congrArg Prod.fst he))
      (Or.inl fun q _ he => hm (TMat.at'_inj.mp he).1) (Or.inr rfl)

theorem tlRows_el (hab : A.id ≠ B.id) {κ n i j : Nat} (hn : n < ceilDiv Nn b)
    (hij : box (tdim Mm b κ) (tdim Nn b n) i j) : ∀ (ms : List Nat), (∀ m ∈ ms, m ≠ κ) →
    ∀ s : Store (M × Nat × Nat) α,
    texec (ms.flatMap (tlRow t A B b Mm Nn 1 κ)) s (B.at' κ n) i j = s (B.at' κ n) i j -
      (ms.map fun m => ∑ l ∈ range (tdim Mm b m), opE t (s (A.at' m κ)) i l * s (B.at' m n) l j).sum := by
  intro ms
  induction ms with
  | nil => intro _ s; simp
  | cons m ms ih =>
    intro hms s
    rw [List.flatMap_cons, texec_append, ih (fun x hx => hms x (List.mem_cons_of_mem _ hx)),
      tlRow_el hab (hms m List.mem_cons_self) hn hij, List.map_cons, List.sum_cons, sub_sub]
    congr 2
    refine congrArg List.sum (List.map_congr_left fun x hx => ?_)
    have hxk := hms x (List.mem_cons_of_mem _ hx)
    refine Finset.sum_congr rfl fun l _ => ?_
    rw [tlRow_writes.frame s (x := A.at' x κ) (by rintro ⟨q, hq⟩; exact hab (congrArg Prod.fst hq)),
      tlRow_writes.frame s (x := B.at' x n) (by rintro ⟨q, hq⟩; exact hxk (TMat.at'_inj.mp hq).1)]

end

section
variable [Field α] [StarRing α] [DecidableEq α] {dv : α → α → α} {t : Trans}
  {d : Diag} {A B : TMat M} {b Mm Nn kt : Nat}

/-- One step of the left-looking variant. -/
theorem tlStep_el (hdv : IsDiv dv) (hA : A.Al b) (hB : B.Al b) (hab : A.id ≠ B.id) (ht : t ≠ .noTrans)
    {k r c : Nat} (hk : k < ceilDiv Mm b) (hr : r < Mm) (hc : c < Nn) (hrk : r / b = ceilDiv Mm b - 1 - k)
    (s : Store (M × Nat × Nat) α) (hd : ∀ i, i < Mm → trE .lower d (A.el s) i i ≠ 0) :
    bsum Mm b (ceilDiv Mm b - 1 - k) (fun l => opE t (trE .lower d (A.el s)) r l *
        B.el (texec (tlStep dv t d 1 A B b Mm Nn kt k) s) l c) =
      B.el s r c - ∑ m ∈ Finset.Ico (ceilDiv Mm b - 1 - k + 1) (min (ceilDiv Mm b - 1 - k + kt) (ceilDiv Mm b)),
        bsum Mm b m (fun l => opE t (trE .lower d (A.el s)) r l * B.el s l c) := by
  have hb := hB.pos
  set κ := ceilDiv Mm b - 1 - k with hκ
  have hq : c / b < ceilDiv Nn b := by
    rw [lt_ceilDiv hb]; have := Nat.div_mul_le_self c b; omega
  have hrb : r % b < b := Nat.mod_lt _ hb
  have hrm : κ * b + r % b = r := by rw [← hrk, divmod]
  have hrt : r % b < tdim Mm b κ := by rw [← hrk]; exact mod_lt_tdim hb hr
  have hct : c % b < tdim Nn b (c / b) := mod_lt_tdim hb hc
  have hel : ∀ (S : Store (M × Nat × Nat) α) {m l : Nat}, l < b →
      B.el S (m * b + l) c = S (B.at' m (c / b)) l (c % b) := by
    intro S m l hl
    have := hB.el_tile S (m := m) (n := c / b) hl (Nat.mod_lt c hb)
    rw [divmod] at this
    exact this
  set ms := span (κ + 1) (min (κ + kt) (ceilDiv Mm b)) with hms
  have hmsne : ∀ m ∈ ms, m ≠ κ := by intro m hm; rw [hms, mem_span] at hm; omega
  set G : List (TTask (M × Nat × Nat) α) := ms.flatMap (tlRow t A B b Mm Nn 1 κ) with hG
  have hGw : Writes (fun x => ∃ n, x = B.at' κ n) G := Writes.flatMap fun _ _ => tlRow_writes
  -- value of the tile
  have htile : ∀ l, l < tdim Mm b κ → texec (tlStep dv t d 1 A B b Mm Nn kt k) s (B.at' κ (c / b)) l (c % b) =
      trsmK dv .left .lower t d (tdim Mm b κ) (tdim Nn b (c / b)) 1 (s (A.at' κ κ))
        (texec G s (B.at' κ (c / b))) l (c % b) := by
    intro l hl
    unfold tlStep
    rw [texec_append]
    simp only [← hκ, ite_self]
    rw [par (body := fun n => [coreTrsm dv .left .lower t d (tdim Mm b κ) (tdim Nn b n) 1 (A.at' κ κ) (B.at' κ n)])
      (o := fun n => B.at' κ n) List.nodup_range (fun p _ q _ h => (TMat.at'_inj.mp h).2) ?_ (fun p _ => writes_op1 rfl) _ (List.mem_range.mpr hq)]
    · rw [texec_cons, texec_nil, coreTrsm_run _ ⟨hl, hct⟩]
      rw [hGw.frame s (x := A.at' κ κ) (by rintro ⟨q, hq⟩; exact hab (congrArg Prod.fst hq))]
    · intro p _
      exact Within.op1 coreTrsm_local (Or.inl fun q _ he => hab (congrArg Prod.fst he)) (Or.inr rfl)
  have h1 : bsum Mm b κ (fun l => opE t (trE .lower d (A.el s)) r l *
        B.el (texec (tlStep dv t d 1 A B b Mm Nn kt k) s) l c) =
      ∑ l ∈ range (tdim Mm b κ), opE t (trE .lower d (s (A.at' κ κ))) (r % b) l *
        trsmK dv .left .lower t d (tdim Mm b κ) (tdim Nn b (c / b)) 1 (s (A.at' κ κ))
          (texec G s (B.at' κ (c / b))) l (c % b) := by
    refine Finset.sum_congr rfl fun l hl => ?_
    rw [Finset.mem_range] at hl
    have hlb : l < b := lt_of_lt_of_le hl tdim_le
    dsimp only
    rw [hel _ hlb, htile l hl, op_trE_diag hA s hrb hlb, hrm]
  have h2 := trsmK_spec (sd := .left) (u := .lower) (t := t) (d := d) (m := tdim Mm b κ) (n := tdim Nn b (c / b))
    hdv (one_ne_zero (α := α)) (X := s (A.at' κ κ)) (Y := texec G s (B.at' κ (c / b))) (r := r % b) (c := c % b)
    (by
      intro i hi
      simp only [trN, if_true] at hi
      rw [trE_diag_tile hA s (lt_of_lt_of_le hi tdim_le)]
      rw [tdim_row] at hi
      exact hd _ hi.2) hrt
  simp only [trN, trT, trEl, if_true, one_mul] at h2
  rw [h1, h2, hG, tlRows_el hab hq ⟨hrt, hct⟩ ms hmsne s, ← hel s hrb, hrm, hms, sum_bspan]
  congr 1
  refine Finset.sum_congr rfl fun m hm => ?_
  rw [Finset.mem_Ico] at hm
  refine Finset.sum_congr rfl fun l hl => ?_
  rw [Finset.mem_range] at hl
  have hlb : l < b := lt_of_lt_of_le hl tdim_le
  dsimp only
  have := op_trE_off (u := .lower) (t := t) (d := d) hA s (x := κ) (y := m) hrb hlb (by
    cases t <;> simp [opLow] at ht ⊢ <;> omega)
  rw [if_neg ht, hrm] at this
  rw [hel s hlb, this]

theorem pztbsm_left_el (hdv : IsDiv dv) (hA : A.Al b) (hB : B.Al b) (hab : A.id ≠ B.id) (hAm : A.d.m = Mm)
    (hm : B.d.m = Mm) (hn : B.d.n = Nn) (ht : t ≠ .noTrans) (hkt : 0 < A.d.klt)
    (s : Store (M × Nat × Nat) α) (hd : ∀ i, i < Mm → trE .lower d (A.el s) i i ≠ 0) :
    ∀ r c, r < Mm → c < Nn →
      ∑ l ∈ range Mm, opE t (trE .lower d (bandT2 b A.d.klt (A.el s))) r l *
          B.el (texec (pztbsm dv .left .lower t d 1 A B) s) l c = B.el s r c := by
  have hb := hB.pos
  rw [pztbsm_left_eq hA hB hAm hm hn ht]
  set kt := A.d.klt with hktd
  set K := ceilDiv Mm b with hK
  set S : Nat → Store (M × Nat × Nat) α := fun k => texec ((List.range k).flatMap (tlStep dv t d 1 A B b Mm Nn kt)) s with hS
  have hSs : ∀ k, S (k+1) = texec (tlStep dv t d 1 A B b Mm Nn kt k) (S k) := fun k => texec_range_succ k s
  have hAel : ∀ k, A.el (S k) = A.el s := by
    intro k
    funext r c
    simp only [TMat.el]
    induction k with
    | zero => rfl
    | succ k ih =>
      rw [hSs, tlStep_writes.frame _ (by rintro ⟨q, hq⟩; exact hab (congrArg Prod.fst hq)), ih]
  have hkeep : ∀ k r c, r / b ≠ K - 1 - k → B.el (S (k+1)) r c = B.el (S k) r c := by
    intro k r c h
    simp only [TMat.el]
    rw [hSs, tlStep_writes.frame]
    rintro ⟨q, hq⟩
    have := (TMat.at'_inj.mp hq).1
    rw [hB.mb] at this
    exact h this
  have hnot : ∀ k r c, r < Mm → k ≤ K - 1 - r / b → B.el (S k) r c = B.el s r c := by
    intro k r c hr
    induction k with
    | zero => intro _; rfl
    | succ k ih => intro h; rw [hkeep k r c (by omega), ih (by omega)]
  have hblk : ∀ {r}, r < Mm → r / b < K := fun {r} hr => by
    rw [hK, lt_ceilDiv hb]
    have := Nat.div_mul_le_self r b; omega
  have hdone : ∀ k r c, r < Mm → K - 1 - r / b < k → k ≤ K → B.el (S k) r c = B.el (S K) r c := by
    intro k r c hr h hkK
    obtain ⟨e, he⟩ := Nat.exists_eq_add_of_le hkK
    have key : ∀ e, k + e ≤ K → B.el (S k) r c = B.el (S (k + e)) r c := by
      intro e
      induction e with
      | zero => intro _; rfl
      | succ e ih =>
        intro he
        rw [ih (by omega), ← Nat.add_assoc, hkeep (k + e) r c]
        have := hblk hr
        omega
    rw [key e (by omega), ← he]
  set F : Nat → Nat → α := B.el (S K) with hF
  set T := opE t (trE .lower d (bandT2 b kt (A.el s))) with hT
  have hord : ∀ k, ord false K k = K - 1 - k := fun k => rfl
  -- what step `k` achieves
  have hstep : ∀ k, k < K → ∀ r c, r < Mm → c < Nn → r / b = K - 1 - k →
      bsum Mm b (K - 1 - k) (fun l => T r l * F l c) =
        B.el s r c - ∑ i ∈ range k, bsum Mm b (K - 1 - i) (fun l => T r l * F l c) := by
    intro k hk r c hr hc hrk
    have := tlStep_el (kt := kt) hdv hA hB hab ht hk hr hc hrk (S k) (by rw [hAel]; exact hd)
    rw [hAel, ← hSs, ← hK] at this
    rw [show bsum Mm b (K - 1 - k) (fun l => T r l * F l c) = bsum Mm b (K - 1 - k) (fun l =>
        opE t (trE .lower d (A.el s)) r l * B.el (S (k + 1)) l c) from bsum_congr fun l hl hlb => by
      rw [hT, op_bandT2 hkt, if_pos (by rw [hrk, hlb]; omega), hdone (k+1) l c hl (by omega) (by omega)], this,
      hnot k r c hr (by omega)]
    congr 1
    have e1 : ∑ i ∈ range k, bsum Mm b (K - 1 - i) (fun l => T r l * F l c) =
        ∑ m ∈ Finset.Ico (K - 1 - k + 1) K, bsum Mm b m (fun l => T r l * F l c) := by
      refine Finset.sum_bij' (fun i _ => K - 1 - i) (fun m _ => K - 1 - m) ?_ ?_ ?_ ?_ ?_
      · intro i hi; rw [Finset.mem_range] at hi; rw [Finset.mem_Ico]; omega
      · intro i hi; rw [Finset.mem_Ico] at hi; rw [Finset.mem_range]; omega
      · intro i hi; rw [Finset.mem_range] at hi; omega
      · intro i hi; rw [Finset.mem_Ico] at hi; omega
      · intro i _; rfl
    rw [e1]
    have e2 : ∑ m ∈ Finset.Ico (K - 1 - k + 1) (min (K - 1 - k + kt) K), bsum Mm b m (fun l => T r l * F l c) =
        ∑ m ∈ Finset.Ico (K - 1 - k + 1) K, bsum Mm b m (fun l => T r l * F l c) := by
      apply Finset.sum_subset
      · intro m hm; rw [Finset.mem_Ico] at *; omega
      · intro m hm hm'
        rw [Finset.mem_Ico] at hm hm'
        rw [show bsum Mm b m (fun l => T r l * F l c) = bsum Mm b m (fun _ => (0 : α)) from
          bsum_congr fun l hl hlb => by
            rw [hT, op_bandT2 hkt, if_neg (by rw [hrk, hlb]; omega), zero_mul]]
        simp [bsum]
    rw [← e2]
    refine Finset.sum_congr rfl fun m hm => ?_
    rw [Finset.mem_Ico] at hm
    refine bsum_congr fun l hl hlb => ?_
    rw [hT, op_bandT2 hkt, if_pos (by rw [hrk, hlb]; omega), hdone k l c hl (by omega) (by omega)]
  have := trsm_math (fwd := false) (N := Mm) (P := Nn) hb (T := T)
    (E := fun k r c => if K - 1 - r / b < k then F r c else
      B.el s r c - ∑ i ∈ range k, bsum Mm b (K - 1 - i) (fun l => T r l * F l c))
    (la := fun _ => 1) (gb := fun _ => 1) (ga := fun _ => -1) (alpha := 1) rfl (by simp) (by simp)
    (by
      intro k hk r c hr hc hrk
      rw [← hK, hord] at hrk ⊢
      rw [if_neg (by omega), one_mul, ← hstep k hk r c hr hc hrk]
      refine bsum_congr fun l hl hlb => ?_
      rw [if_pos (by omega)])
    (by
      intro k hk j hkj hj r c hr hc hrj
      rw [← hK, hord] at hrj ⊢
      rw [← hK] at hj hk
      rw [if_neg (by omega), if_neg (by omega), Finset.sum_range_succ]
      rw [show bsum Mm b (K - 1 - k) (fun l => T r l * if K - 1 - l / b < k + 1 then F l c else
        B.el s l c - ∑ i ∈ range (k + 1), bsum Mm b (K - 1 - i) (fun l' => T l l' * F l' c)) =
        bsum Mm b (K - 1 - k) (fun l => T r l * F l c) from bsum_congr fun l hl hlb => by rw [if_pos (by omega)]]
      ring)
    (by
      intro k hk j hjk r c hr hc hrj
      rw [← hK, hord] at hrj
      rw [← hK] at hk
      rw [if_pos (by omega), if_pos (by omega)])
    (by
      intro r l hr hl h
      refine op_tri_zero ?_
      cases t <;> simp [opLow] at ht h ⊢ <;> exact h)
  intro r c hr hc
  have := this r c hr hc
  rw [← hK, one_mul] at this
  have hbr := hblk hr
  rw [if_neg (by omega)] at this
  simp only [Finset.range_zero, Finset.sum_empty, sub_zero] at this
  rw [← this]
  refine Finset.sum_congr rfl fun l hl => ?_
  rw [Finset.mem_range] at hl
  have hbl := hblk hl
  have : K - 1 - l / b < K := by generalize l / b = x at hbl ⊢; omega
  rw [if_pos this]

/-- **Triangular band solve, tile algorithm** (`alpha = 1`). -/
theorem pztbsm_el (hdv : IsDiv dv) {u : Uplo} (hA : A.Al b) (hB : B.Al b) (hab : A.id ≠ B.id) (hAm : A.d.m = Mm)
    (hm : B.d.m = Mm) (hn : B.d.n = Nn) (hkt : 0 < bkt u A.d)
    (s : Store (M × Nat × Nat) α) (hd : ∀ i, i < Mm → trE u d (A.el s) i i ≠ 0) :
    ∀ r c, r < Mm → c < Nn →
      ∑ l ∈ range Mm, opE t (trE u d (bandT2 b (bkt u A.d) (A.el s))) r l *
          B.el (texec (pztbsm dv .left u t d 1 A B) s) l c = B.el s r c := by
  by_cases h : u = .upper ∨ t = .noTrans
  · exact pztbsm_right_el hdv hA hB hab hAm hm hn h hkt s hd
  · obtain ⟨h1, h2⟩ := not_or.mp h
    have hu : u = .lower := by cases u <;> simp at h1 ⊢
    subst hu
    exact pztbsm_left_el hdv hA hB hab hAm hm hn h2 (by simpa [bkt] using hkt) s hd

end

section
variable [CommRing α] [StarRing α] [DecidableEq α] {dv : α → α → α} {u : Uplo} {t : Trans} {d : Diag} {alpha : α}
  {A B : TMat M} {b Mm Nn : Nat}

theorem pztbsm_writes : Writes (fun x => x.1 = B.id) (pztbsm dv .left u t d alpha A B) := by
  have hg : ∀ {ta tb : Trans} {m n k : Nat} {x y : α} {p q : M × Nat × Nat} {i j : Nat},
      Writes (fun x => x.1 = B.id) [coreGemm ta tb m n k x p q y (B.at' i j)] := writes_op2 rfl
  have ht : ∀ {sd : Side} {m n : Nat} {x : α} {p : M × Nat × Nat} {i j : Nat},
      Writes (fun x => x.1 = B.id) [coreTrsm dv sd u t d m n x p (B.at' i j)] := writes_op1 rfl
  unfold pztbsm
  rw [if_pos rfl]
  split
  · split
    · exact Writes.flatMap fun k _ => (Writes.map fun n _ => ht).append
        (Writes.flatMap fun m _ => Writes.map fun n _ => hg)
    · exact Writes.flatMap fun k _ => (Writes.map fun n _ => ht).append
        (Writes.flatMap fun m _ => Writes.map fun n _ => hg)
  · split
    · exact Writes.flatMap fun k _ => (Writes.map fun n _ => ht).append
        (Writes.flatMap fun m _ => Writes.map fun n _ => hg)
    · exact Writes.flatMap fun k _ =>
        (Writes.flatMap fun m _ => Writes.map fun n _ => hg).append (Writes.map fun n _ => ht)

/-- The tasks touch stored elements only; of `A` only tiles of the selected triangle inside the band. -/
theorem pztbsm_good {env : M → MatEnv} (hA : FitsOn env b (inBandT u (bkt u A.d)) A) (hB : Fits env b B)
    (hkt : 0 < bkt u A.d) (hAm : A.d.m = Mm) (hAn : A.d.n = Mm) (hm : B.d.m = Mm) (hn : B.d.n = Nn) :
    Good (evalid env) (pztbsm dv .left u t d alpha A B) := by
  have hAd : ∀ {x : Nat} {i j}, triD u d (tdim Mm b x) i j → evalid env (A.at' x x) i j := by
    intro x i j h
    exact hA.validOn (by unfold inBandT; split <;> omega) (by rw [hAm]; exact h.1) (by rw [hAn]; exact h.2.1)
  have hAo : ∀ {x y : Nat} {i j}, inBandT u (bkt u A.d) x y → i < tdim Mm b x → j < tdim Mm b y →
      evalid env (A.at' x y) i j := by
    intro x y i j h hi hj
    exact hA.validOn h (by rw [hAm]; exact hi) (by rw [hAn]; exact hj)
  have hBb : ∀ (x y : Nat) i j, box (tdim Mm b x) (tdim Nn b y) i j → evalid env (B.at' x y) i j :=
    fun x y => hB.box (by rw [hm]) (by rw [hn])
  by_cases hut : u = .upper ∨ t = .noTrans
  · rw [pztbsm_right_eq hA.al hB.al hAm hm hn hut hkt]
    refine Good.flatMap fun k hk => Good.flatMap fun p hp => ?_
    rw [List.mem_range] at hk
    rw [mem_tbIdx hk hkt] at hp
    unfold trTask
    simp only [if_true, trB]
    by_cases hpk : p.1 = k
    · rw [if_pos hpk]
      exact Good.single coreTrsm_local op1_declared (op1_inside
        (fun i j h => hAd (by simpa using h)) (by rw [← hpk]; exact hBb _ _))
    · rw [if_neg hpk]
      refine gemm_single_good ?_ (by simp only [if_true]; exact hBb _ _) (hBb _ _)
      intro i j h
      by_cases ht : t = .noTrans
      · rw [if_pos ht] at h ⊢
        refine hAo ?_ h.1 h.2
        cases u <;> simp [trFwd, opLow, ht, inBandT, ord] <;> omega
      · rw [if_neg ht] at h ⊢
        refine hAo ?_ h.1 h.2
        cases u <;> simp [trFwd, opLow, ht, inBandT, ord] at hut ⊢ <;> omega
  · obtain ⟨h1, h2⟩ := not_or.mp hut
    have hu : u = .lower := by cases u <;> simp at h1 ⊢
    subst hu
    rw [pztbsm_left_eq hA.al hB.al hAm hm hn h2]
    refine Good.flatMap fun k hk => ?_
    rw [List.mem_range] at hk
    refine (Good.flatMap fun m hm => Good.flatMap fun n hn => ?_).append (Good.flatMap fun n hn => ?_)
    · rw [mem_span] at hm
      refine gemm_single_good ?_ (by simp only [if_true]; exact hBb _ _) (hBb _ _)
      intro i j h
      rw [if_neg h2] at h
      refine hAo ?_ h.1 h.2
      simp [inBandT, bkt]; omega
    · exact Good.single coreTrsm_local op1_declared (op1_inside
        (fun i j h => hAd (by simpa using h)) (hBb _ _))

end

end Verif.Tile

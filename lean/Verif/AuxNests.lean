/-
Copy, set, scale and add: compute/pzlacpy.c, pzlaset.c, pzlascl.c, pzgeadd.c, pztradd.c
and their kernels.
-/
import Verif.DriverK
import Verif.TriMath

namespace Verif.Tile

open Verif.Layout Finset

universe u v

variable {M : Type u} {α : Type v}

/-! ### Selected parts

`Stor` doubles as the `uplo` argument of these routines: `none` is `PlasmaGeneral`,
`some u` a triangle, and `stOK` says whether an element (or tile) is selected. -/

/-- An element is selected iff its tile is, and, in a diagonal tile, the element is. -/
theorem stOK_split {sel : Stor} {b r c : Nat} (hb : 0 < b) :
    stOK sel r c ↔ stOK sel (r / b) (c / b) ∧ (r / b = c / b → stOK sel (r % b) (c % b)) := by
  cases sel with
  | none => simp [stOK]
  | some u =>
    have h1 := divmod r b
    have h2 := divmod c b
    have h3 := Nat.mod_lt r hb
    have h4 := Nat.mod_lt c hb
    have key : ∀ x y, x < y → x * b + b ≤ y * b := by
      intro x y h
      have := Nat.mul_le_mul_right b h
      rw [Nat.succ_mul] at this; exact this
    unfold stOK inTri
    rcases Nat.lt_trichotomy (r / b) (c / b) with h | h | h
    · have := key _ _ h
      cases u <;> simp only <;> constructor <;> intro hh <;> omega
    · rw [h] at h1
      cases u <;> simp only [h] <;> constructor <;> intro hh <;>
        first | (exact ⟨le_rfl, fun _ => by omega⟩) | (have := hh.2 trivial; omega)
    · have := key _ _ h
      cases u <;> simp only <;> constructor <;> intro hh <;> omega

theorem stOK_diag (sel : Stor) (m : Nat) : stOK sel m m := by
  cases sel with
  | none => trivial
  | some u => unfold stOK inTri; cases u <;> simp

/-- `uplo` of the transposed matrix. -/
def stFlip : Stor → Stor
  | none => none
  | some .upper => some .lower
  | some .lower => some .upper

theorem stOK_flip (sel : Stor) (m n : Nat) : stOK (stFlip sel) m n ↔ stOK sel n m := by
  cases sel with
  | none => simp [stFlip, stOK]
  | some u => cases u <;> simp [stFlip, stOK, inTri]

/-- The part of the destination the part `sel` of the source goes to. -/
def stTr (t : Trans) (sel : Stor) : Stor := if t = .noTrans then sel else stFlip sel

/-! ### Element loops -/

/-- A C loop visiting the elements of `L` in order and replacing each by `g` of it. -/
def sweep (L : List (Nat × Nat)) (g : Nat → Nat → α → α) (B : Tl α) : Tl α :=
  L.foldl (fun B p => fun i j => if i = p.1 ∧ j = p.2 then g i j (B i j) else B i j) B

theorem sweep_spec {L : List (Nat × Nat)} (hL : L.Nodup) (g : Nat → Nat → α → α) (B : Tl α) (i j : Nat) :
    sweep L g B i j = if (i, j) ∈ L then g i j (B i j) else B i j := by
  unfold sweep
  induction L generalizing B with
  | nil => simp
  | cons p L ih =>
    rw [List.nodup_cons] at hL
    rw [List.foldl_cons, ih hL.2]
    by_cases hp : i = p.1 ∧ j = p.2
    · have hp' : (i, j) = p := Prod.ext hp.1 hp.2
      rw [if_neg (by rw [hp']; exact hL.1), if_pos hp, if_pos (by rw [hp']; simp)]
    · have hp' : (i, j) ≠ p := fun h => hp ⟨congrArg Prod.fst h, congrArg Prod.snd h⟩
      rw [if_neg hp]
      simp only [List.mem_cons, hp', false_or]

/-- Index pairs of two nested loops. -/
def loop2 (L : List Nat) (S : Nat → List Nat) : List (Nat × Nat) :=
  L.flatMap fun x => (S x).map fun y => (x, y)

theorem mem_loop2 {L : List Nat} {S : Nat → List Nat} {p : Nat × Nat} :
    p ∈ loop2 L S ↔ p.1 ∈ L ∧ p.2 ∈ S p.1 := by
  obtain ⟨x, y⟩ := p
  simp only [loop2, List.mem_flatMap, List.mem_map, Prod.mk.injEq]
  constructor
  · rintro ⟨_, h, _, h', rfl, rfl⟩; exact ⟨h, h'⟩
  · rintro ⟨h, h'⟩; exact ⟨_, h, _, h', rfl, rfl⟩

theorem nodup_loop2 {L : List Nat} {S : Nat → List Nat} (hL : L.Nodup) (hS : ∀ x ∈ L, (S x).Nodup) :
    (loop2 L S).Nodup := by
  unfold loop2
  rw [List.nodup_flatMap]
  refine ⟨fun x hx => (hS x hx).map fun a b h => (Prod.mk.inj h).2, ?_⟩
  refine List.Pairwise.imp ?_ hL
  intro a b hab x hx hy
  obtain ⟨_, _, rfl⟩ := List.mem_map.mp hx
  obtain ⟨_, _, hy⟩ := List.mem_map.mp hy
  exact hab (Prod.mk.inj hy).1.symm

theorem nodup_swap {L : List (Nat × Nat)} (h : L.Nodup) : (L.map Prod.swap).Nodup :=
  h.map Prod.swap_injective

theorem mem_swap {L : List (Nat × Nat)} {i j : Nat} : (i, j) ∈ L.map Prod.swap ↔ (j, i) ∈ L := by
  rw [List.mem_map]
  constructor
  · rintro ⟨⟨a, b⟩, h, he⟩; cases he; exact h
  · intro h; exact ⟨_, h, rfl⟩

/-! ### Kernels -/

/-- Elements `(i, j)` of the source visited by `plasma_core_zlacpy`
(core_blas/core_zlacpy.c:66-110), in order.  Without transposition LAPACK's zlacpy copies
the selected part of the `m`-by-`n` matrix. -/
def lacpyIdx (sel : Stor) (t : Trans) (m n : Nat) : List (Nat × Nat) :=
  if t = .noTrans then
    loop2 (List.range m) fun i => (List.range n).filter fun j => decide (stOK sel i j)
  else match sel with
    | some .upper => loop2 (List.range (min m n)) fun i => span i n
    | some .lower => loop2 (List.range m) fun i => List.range (min i n + 1)
    | none => loop2 (List.range m) fun _ => List.range n

/-- `conj` for `PlasmaConjTrans`. -/
def trC [Star α] (t : Trans) (x : α) : α := if t = .conjTrans then star x else x

/-- Destination index of source element `(i, j)`: `B[i + j*ldb]` or `B[j + i*ldb]`. -/
def lacpyDst (t : Trans) (p : Nat × Nat) : Nat × Nat := if t = .noTrans then p else p.swap

/-- `plasma_core_omp_zlacpy` (core_blas/core_zlacpy.c:61-129), loop by loop for the
transposed variants. -/
def coreLacpy [Star α] (sel : Stor) (t : Trans) (m n : Nat) (a b : M) : TTask M α :=
  op1 a (fun i j => (i, j) ∈ lacpyIdx sel t m n) b
    (fun i j => (i, j) ∈ (lacpyIdx sel t m n).map (lacpyDst t))
    (fun A B => sweep ((lacpyIdx sel t m n).map (lacpyDst t))
      (fun i j _ => trC t (if t = .noTrans then A i j else A j i)) B)

/-- Elements written by `plasma_core_omp_zlaset`: the selected part of the `m`-by-`n`
block that starts at `(i0, j0)`. -/
def lasetFoot (sel : Stor) (i0 j0 m n : Nat) : Nat → Nat → Prop := fun i j =>
  i0 ≤ i ∧ i < i0 + m ∧ j0 ≤ j ∧ j < j0 + n ∧ stOK sel (i - i0) (j - j0)

/-- `plasma_core_omp_zlaset` (core_blas/core_zlaset.c:57-84) by the LAPACK specification
of zlaset; the `memset` branch writes the same values. -/
def coreLaset (sel : Stor) (i0 j0 m n : Nat) (alpha beta : α) (a : M) : TTask M α :=
  op0 a (lasetFoot sel i0 j0 m n) (fun _ i j => if i - i0 = j - j0 then beta else alpha)

section
variable [CommRing α] [StarRing α] [DecidableEq α]

/-- `plasma_core_omp_zlascl` (core_blas/core_zlascl.c:19-51) by the LAPACK specification
of zlascl. -/
def coreLascl (dv : α → α → α) (sel : Stor) (cfrom cto : α) (m n : Nat) (a : M) : TTask M α :=
  op0 a (fun i j => box m n i j ∧ stOK sel i j) (fun A i j => dv cto cfrom * A i j)

/-- Elements visited by `plasma_core_zgeadd` (core_blas/core_zgeadd.c:117-134) and
`plasma_core_ztradd` (core_blas/core_ztradd.c:136-180), in order, row index first. -/
def addIdx (sel : Stor) (m n : Nat) : List (Nat × Nat) :=
  (match sel with
    | none => loop2 (List.range n) fun _ => List.range m
    | some .lower => loop2 (List.range n) fun j => span j m
    | some .upper => loop2 (List.range n) fun j => List.range (min (j + 1) m)).map Prod.swap

/-- `plasma_core_omp_zgeadd` (core_blas/core_zgeadd.c:75-163, `sel = none`) and
`plasma_core_omp_ztradd` (core_blas/core_ztradd.c:81-209), loop by loop. -/
def coreAdd (sel : Stor) (t : Trans) (m n : Nat) (alpha : α) (a : M) (beta : α) (b : M) : TTask M α :=
  op1 a (fun i j => (if t = .noTrans then (i, j) else (j, i)) ∈ addIdx sel m n) b
    (fun i j => (i, j) ∈ addIdx sel m n)
    (fun A B =>
      if m = 0 ∨ n = 0 ∨ (alpha = 0 ∧ beta = 1) then B
      else sweep (addIdx sel m n) (fun i j x => beta * x + alpha * opE t A i j) B)

/-! ### Loop nests -/

/-- `plasma_pzlacpy` (compute/pzlacpy.c:26-144). -/
def pzlacpy (sel : Stor) (t : Trans) (A B : TMat M) : List (TTask (M × Nat × Nat) α) :=
  match sel with
  | some .upper =>
    (List.range A.d.mt).flatMap fun m =>
      (if m < A.d.nt then
        [coreLacpy (some .upper) t (A.d.mview m) (A.d.nview m) (A.at' m m) (B.at' m m)] else []) ++
      (span (m+1) A.d.nt).map fun n =>
        if t = .noTrans then
          coreLacpy none t (A.d.mview m) (A.d.nview n) (A.at' m n) (B.at' m n)
        else coreLacpy none t (A.d.mview m) (A.d.nview n) (A.at' m n) (B.at' n m)
  | some .lower =>
    (List.range A.d.mt).flatMap fun m =>
      (if m < A.d.nt then
        [coreLacpy (some .lower) t (A.d.mview m) (A.d.nview m) (A.at' m m) (B.at' m m)] else []) ++
      (span 0 (min m A.d.nt)).map fun n =>
        if t = .noTrans then
          coreLacpy none t (A.d.mview m) (A.d.nview n) (A.at' m n) (B.at' m n)
        else coreLacpy none t (A.d.mview m) (A.d.nview n) (A.at' m n) (B.at' n m)
  | none =>
    (List.range A.d.mt).flatMap fun m => (List.range A.d.nt).map fun n =>
        if t = .noTrans then
          coreLacpy none t (A.d.mview m) (A.d.nview n) (A.at' m n) (B.at' m n)
        else coreLacpy none t (A.d.mview m) (A.d.nview n) (A.at' m n) (B.at' n m)

/-- Number of rows (columns) handled in tile row (column) `i` by `plasma_pzlaset`
(compute/pzlaset.c:45-62). -/
def lasetDim (off m mb mt i : Nat) : Nat :=
  if i = 0 ∧ i = mt - 1 then m
  else if i = 0 then mb - off % mb
  else if i = mt - 1 then (off + m + mb - 1) % mb + 1
  else mb

/-- `plasma_pzlaset` (compute/pzlaset.c:29-79).  The kernel's `mb`, `nb` arguments (the
tile's leading dimension and the extent in the depend clause) are those of the tile. -/
def pzlaset (sel : Stor) (alpha beta : α) (A : TMat M) : List (TTask (M × Nat × Nat) α) :=
  (List.range A.d.mt).flatMap fun i => (List.range A.d.nt).flatMap fun j =>
    if sel = none ∨ (sel = some .lower ∧ i ≥ j) ∨ (sel = some .upper ∧ i ≤ j) then
      [coreLaset (if i = j then sel else none) (if i = 0 then A.d.i % A.d.mb else 0)
        (if j = 0 then A.d.j % A.d.nb else 0) (lasetDim A.d.i A.d.m A.d.mb A.d.mt i)
        (lasetDim A.d.j A.d.n A.d.nb A.d.nt j) alpha (if i ≠ j then alpha else beta) (A.at' i j)]
    else []

/-- `plasma_pzlascl` (compute/pzlascl.c:22-105). -/
def pzlascl (dv : α → α → α) (sel : Stor) (cfrom cto : α) (A : TMat M) :
    List (TTask (M × Nat × Nat) α) :=
  match sel with
  | some .upper =>
    (List.range A.d.mt).flatMap fun m =>
      (if m < A.d.nt then
        [coreLascl dv (some .upper) cfrom cto (A.d.mview m) (A.d.nview m) (A.at' m m)] else []) ++
      (span (m+1) A.d.nt).map fun n =>
        coreLascl dv none cfrom cto (A.d.mview m) (A.d.nview n) (A.at' m n)
  | some .lower =>
    (List.range A.d.mt).flatMap fun m =>
      (if m < A.d.nt then
        [coreLascl dv (some .lower) cfrom cto (A.d.mview m) (A.d.nview m) (A.at' m m)] else []) ++
      (span 0 (min m A.d.nt)).map fun n =>
        coreLascl dv none cfrom cto (A.d.mview m) (A.d.nview n) (A.at' m n)
  | none =>
    (List.range A.d.mt).flatMap fun m => (List.range A.d.nt).map fun n =>
      coreLascl dv none cfrom cto (A.d.mview m) (A.d.nview n) (A.at' m n)

/-- `plasma_pzgeadd` (compute/pzgeadd.c:28-73). -/
def pzgeadd (t : Trans) (alpha : α) (A : TMat M) (beta : α) (B : TMat M) :
    List (TTask (M × Nat × Nat) α) :=
  if t = .noTrans then
    (List.range B.d.mt).flatMap fun m => (List.range B.d.nt).map fun n =>
      coreAdd none t (B.d.mview m) (B.d.nview n) alpha (A.at' m n) beta (B.at' m n)
  else
    (List.range B.d.mt).flatMap fun m => (List.range B.d.nt).map fun n =>
      coreAdd none t (B.d.mview m) (B.d.nview n) alpha (A.at' n m) beta (B.at' m n)

/-- `plasma_pztradd` (compute/pztradd.c:28-155). -/
def pztradd (u : Uplo) (t : Trans) (alpha : α) (A : TMat M) (beta : α) (B : TMat M) :
    List (TTask (M × Nat × Nat) α) :=
  if u = .lower then
    if t = .noTrans then
      (List.range (min B.d.mt B.d.nt)).flatMap fun n =>
        coreAdd (some u) t (B.d.mview n) (B.d.nview n) alpha (A.at' n n) beta (B.at' n n) ::
        (span (n+1) B.d.mt).map fun m =>
          coreAdd none t (B.d.mview m) (B.d.nview n) alpha (A.at' m n) beta (B.at' m n)
    else
      (List.range (min B.d.mt B.d.nt)).flatMap fun n =>
        coreAdd (some u) t (B.d.mview n) (B.d.nview n) alpha (A.at' n n) beta (B.at' n n) ::
        (span (n+1) B.d.mt).map fun m =>
          coreAdd none t (B.d.mview m) (B.d.nview n) alpha (A.at' n m) beta (B.at' m n)
  else
    if t = .noTrans then
      (List.range (min B.d.mt B.d.nt)).flatMap fun m =>
        coreAdd (some u) t (B.d.mview m) (B.d.nview m) alpha (A.at' m m) beta (B.at' m m) ::
        (span (m+1) B.d.nt).map fun n =>
          coreAdd none t (B.d.mview m) (B.d.nview n) alpha (A.at' m n) beta (B.at' m n)
    else
      (List.range (min B.d.mt B.d.nt)).flatMap fun m =>
        coreAdd (some u) t (B.d.mview m) (B.d.nview m) alpha (A.at' m m) beta (B.at' m m) ::
        (span (m+1) B.d.nt).map fun n =>
          coreAdd none t (B.d.mview m) (B.d.nview n) alpha (A.at' n m) beta (B.at' m n)

end

/-! ### Loop nests that visit every selected tile once -/

/-- `L` lists the selected tiles of a matrix with `mt` by `nt` tiles, each once. -/
structure SelIdx (sel : Stor) (mt nt : Nat) (L : List (Nat × Nat)) : Prop where
  nodup : L.Nodup
  mem : ∀ p, p ∈ L ↔ p.1 < mt ∧ p.2 < nt ∧ stOK sel p.1 p.2

theorem SelIdx.swap {sel : Stor} {mt nt : Nat} {L : List (Nat × Nat)} (h : SelIdx sel mt nt L) :
    SelIdx (stFlip sel) nt mt (L.map Prod.swap) where
  nodup := nodup_swap h.nodup
  mem := by
    rintro ⟨m, n⟩
    rw [mem_swap, h.mem, stOK_flip]
    constructor
    · rintro ⟨h1, h2, h3⟩; exact ⟨h2, h1, h3⟩
    · rintro ⟨h1, h2, h3⟩; exact ⟨h2, h1, h3⟩

/-- One task per selected tile. -/
theorem nest_el {sel : Stor} {B : TMat M} {b : Nat} (hB : B.Al b) {L : List (Nat × Nat)}
    (hL : SelIdx sel B.d.mt B.d.nt L) {task : Nat × Nat → TTask (M × Nat × Nat) α} {R : M → Prop}
    (hRB : ¬ R B.id) (hw : ∀ p, Writes (fun t => t = B.at' p.1 p.2) [task p])
    (hin : ∀ p, Within (fun t => R t.1 ∨ t = B.at' p.1 p.2) [task p])
    (s : Store (M × Nat × Nat) α) {r c : Nat} (hr : r < B.d.m) (hc : c < B.d.n) {v : α}
    (hrun : stOK sel (r / b) (c / b) → (task (r / b, c / b)).run s (B.at' (r / b) (c / b)) (r % b) (c % b) =
      if (r / b = c / b → stOK sel (r % b) (c % b)) then v
      else s (B.at' (r / b) (c / b)) (r % b) (c % b)) :
    B.el (texec (L.map task) s) r c = if stOK sel r c then v else B.el s r c := by
  have hm := hB.row_mt hr
  have hn := hB.col_nt hc
  rw [List.map_eq_flatMap]
  simp only [TMat.el, hB.mb, hB.nb]
  by_cases hst : stOK sel (r / b) (c / b)
  · have hp : (r / b, c / b) ∈ L := (hL.mem _).mpr ⟨hm, hn, hst⟩
    have := par (o := fun p : Nat × Nat => B.at' p.1 p.2) (body := fun p => [task p]) hL.nodup
      (fun p _ q _ h => Prod.ext (TMat.at'_inj.mp h).1 (TMat.at'_inj.mp h).2)
      (fun p _ => (hin p).mono fun t ht => ht.imp (fun h q _ e => hRB (by rw [e] at h; exact h)) id)
      (fun p _ => hw p) s hp
    simp only at this
    rw [this, texec_cons, texec_nil, hrun hst]
    have e : stOK sel r c ↔ (r / b = c / b → stOK sel (r % b) (c % b)) := by
      rw [stOK_split hB.pos]; simp [hst]
    by_cases h : stOK sel r c
    · rw [if_pos h, if_pos (e.mp h)]
    · rw [if_neg h, if_neg (fun h' => h (e.mpr h'))]
  · rw [if_neg (fun h => hst ((stOK_split hB.pos).mp h).1)]
    rw [par_frame (o := fun p : Nat × Nat => B.at' p.1 p.2) (body := fun p => [task p]) (fun p _ => hw p)]
    intro q hq he
    rw [TMat.at'_inj] at he
    apply hst
    rw [he.1, he.2]
    exact ((hL.mem q).mp hq).2.2

/-- Row by row: diagonal tile first (compute/pzlacpy.c, compute/pzlascl.c). -/
def rowIdx (sel : Stor) (mt nt : Nat) : List (Nat × Nat) :=
  match sel with
  | some .upper => (List.range mt).flatMap fun m =>
      (if m < nt then [(m, m)] else []) ++ (span (m+1) nt).map fun n => (m, n)
  | some .lower => (List.range mt).flatMap fun m =>
      (if m < nt then [(m, m)] else []) ++ (span 0 (min m nt)).map fun n => (m, n)
  | none => (List.range mt).flatMap fun m => (List.range nt).map fun n => (m, n)

theorem rowIdx_sel (sel : Stor) (mt nt : Nat) : SelIdx sel mt nt (rowIdx sel mt nt) := by
  have hmem : ∀ (S : Nat → List Nat) (p : Nat × Nat),
      p ∈ (List.range mt).flatMap (fun m => (if m < nt then [(m, m)] else []) ++ (S m).map fun n => (m, n)) ↔
        p.1 < mt ∧ ((p.1 < nt ∧ p.2 = p.1) ∨ p.2 ∈ S p.1) := by
    rintro S ⟨x, y⟩
    simp only [List.mem_flatMap, List.mem_range, List.mem_append, List.mem_map, Prod.mk.injEq]
    constructor
    · rintro ⟨m, hm, h | ⟨n, hn, rfl, rfl⟩⟩
      · split at h
        · simp only [List.mem_singleton, Prod.mk.injEq] at h
          obtain ⟨rfl, rfl⟩ := h
          exact ⟨hm, Or.inl ⟨‹_›, rfl⟩⟩
        · simp at h
      · exact ⟨hm, Or.inr hn⟩
    · rintro ⟨hm, ⟨h, h'⟩ | h⟩
      · exact ⟨x, hm, Or.inl (by rw [if_pos h]; simp [h'])⟩
      · exact ⟨x, hm, Or.inr ⟨y, h, rfl, rfl⟩⟩
  have hnd : ∀ (S : Nat → List Nat), (∀ m, (S m).Nodup) → (∀ m, m ∉ S m) →
      ((List.range mt).flatMap fun m =>
        (if m < nt then [(m, m)] else []) ++ (S m).map fun n => (m, n)).Nodup := by
    intro S h1 h2
    rw [List.nodup_flatMap]
    refine ⟨fun m _ => ?_, ?_⟩
    · rw [List.nodup_append]
      refine ⟨by split <;> simp, (h1 m).map fun a b h => (Prod.mk.inj h).2, ?_⟩
      intro x hx y hy he
      obtain ⟨n, hn, rfl⟩ := List.mem_map.mp hy
      split at hx
      · simp only [List.mem_singleton] at hx
        rw [hx, Prod.mk.injEq] at he
        exact h2 m (he.2 ▸ hn)
      · simp at hx
    · refine List.Pairwise.imp ?_ List.nodup_range
      intro a b hab x hx hy
      have hfst : ∀ {a} {x : Nat × Nat}, x ∈ (if a < nt then [(a, a)] else []) ++ (S a).map (fun n => (a, n)) →
          x.1 = a := by
        intro a x hx
        rcases List.mem_append.mp hx with h | h
        · split at h
          · simp only [List.mem_singleton] at h; rw [h]
          · simp at h
        · obtain ⟨_, _, rfl⟩ := List.mem_map.mp h; rfl
      exact hab ((hfst hx).symm.trans (hfst hy))
  rcases sel with _ | _ | _
  · exact ⟨nodup_loop2 List.nodup_range fun _ _ => List.nodup_range,
      fun p => by rw [show rowIdx none mt nt = loop2 (List.range mt) fun _ => List.range nt from rfl, mem_loop2]
                  simp [stOK]⟩
  · refine ⟨hnd _ (fun m => nodup_span) (fun m => by simp [mem_span]), fun p => ?_⟩
    refine (hmem _ p).trans ?_
    simp only [mem_span, stOK, inTri]
    omega
  · refine ⟨hnd _ (fun m => nodup_span) (fun m => by simp [mem_span]), fun p => ?_⟩
    refine (hmem _ p).trans ?_
    simp only [mem_span, stOK, inTri]
    omega

/-- Diagonal tile first, then the tiles below or right of it (compute/pztradd.c). -/
def arrowIdx (u : Uplo) (mt nt : Nat) : List (Nat × Nat) :=
  if u = .lower then (triPairs (List.range (min mt nt)) fun n => span (n+1) mt).map Prod.swap
  else triPairs (List.range (min mt nt)) fun m => span (m+1) nt

theorem arrowIdx_sel (u : Uplo) (mt nt : Nat) : SelIdx (some u) mt nt (arrowIdx u mt nt) := by
  unfold arrowIdx
  cases u
  · simp only [reduceCtorEq, if_false]
    refine ⟨nodup_triPairs List.nodup_range (fun _ => nodup_span) (fun m => by simp [mem_span]), fun p => ?_⟩
    rw [mem_triPairs]
    simp only [mem_span, stOK, inTri, List.mem_range]
    omega
  · simp only [if_true]
    refine ⟨nodup_swap (nodup_triPairs List.nodup_range (fun _ => nodup_span) (fun m => by simp [mem_span])), ?_⟩
    rintro ⟨x, y⟩
    rw [mem_swap, mem_triPairs]
    simp only [mem_span, stOK, inTri, List.mem_range]
    omega

theorem fullIdx_sel (sel : Stor) (mt nt : Nat) :
    SelIdx sel mt nt (loop2 (List.range mt) fun i => (List.range nt).filter fun j => decide (stOK sel i j)) where
  nodup := nodup_loop2 List.nodup_range fun _ _ => List.nodup_range.filter _
  mem := fun p => by rw [mem_loop2]; simp

/-! ### Kernels: what they compute -/

theorem mem_lacpyIdx {sel : Stor} {t : Trans} {m n : Nat} (h : t = .noTrans ∨ sel ≠ some .lower ∨ m ≤ n)
    {i j : Nat} : (i, j) ∈ lacpyIdx sel t m n ↔ i < m ∧ j < n ∧ stOK sel i j := by
  unfold lacpyIdx
  by_cases ht : t = .noTrans
  · rw [if_pos ht, mem_loop2]; simp
  · rw [if_neg ht]
    rcases sel with _ | _ | _ <;> simp only [mem_loop2, List.mem_range, mem_span, stOK, inTri]
    · simp
    · omega
    · simp [ht] at h; omega

theorem nodup_lacpyIdx {sel : Stor} {t : Trans} {m n : Nat} : (lacpyIdx sel t m n).Nodup := by
  unfold lacpyIdx
  split
  · exact nodup_loop2 List.nodup_range fun _ _ => List.nodup_range.filter _
  · split
    · exact nodup_loop2 List.nodup_range fun _ _ => nodup_span
    · exact nodup_loop2 List.nodup_range fun _ _ => List.nodup_range
    · exact nodup_loop2 List.nodup_range fun _ _ => List.nodup_range

theorem mem_lacpyDst {sel : Stor} {t : Trans} {m n : Nat} {i j : Nat} :
    (i, j) ∈ (lacpyIdx sel t m n).map (lacpyDst t) ↔
      (if t = .noTrans then (i, j) else (j, i)) ∈ lacpyIdx sel t m n := by
  unfold lacpyDst
  by_cases ht : t = .noTrans
  · simp only [ht, if_true]; simp
  · simp only [ht, if_false]; exact mem_swap

theorem nodup_lacpyDst {sel : Stor} {t : Trans} {m n : Nat} :
    ((lacpyIdx sel t m n).map (lacpyDst t)).Nodup := by
  unfold lacpyDst
  by_cases ht : t = .noTrans
  · simp only [ht, if_true]; simpa using nodup_lacpyIdx
  · simp only [ht, if_false]; exact nodup_swap nodup_lacpyIdx

theorem coreLacpy_local [Star α] {sel : Stor} {t : Trans} {m n : Nat} {a b : M} :
    (coreLacpy (α := α) sel t m n a b).Local := by
  refine op1_local fun A A' C C' hA hC i j hij => ?_
  rw [sweep_spec nodup_lacpyDst, sweep_spec nodup_lacpyDst, if_pos hij, if_pos hij]
  rw [mem_lacpyDst] at hij
  by_cases ht : t = .noTrans
  · simp only [ht, if_true] at hij ⊢; rw [hA i j (by rw [ht]; exact hij)]
  · simp only [ht, if_false] at hij ⊢; rw [hA j i hij]

theorem mem_addIdx {sel : Stor} {m n : Nat} {i j : Nat} :
    (i, j) ∈ addIdx sel m n ↔ i < m ∧ j < n ∧ stOK sel i j := by
  unfold addIdx
  rw [mem_swap]
  rcases sel with _ | _ | _ <;> simp only [mem_loop2, List.mem_range, mem_span, stOK, inTri, and_true] <;> omega

theorem nodup_addIdx {sel : Stor} {m n : Nat} : (addIdx sel m n).Nodup := by
  unfold addIdx
  apply nodup_swap
  split
  · exact nodup_loop2 List.nodup_range fun _ _ => List.nodup_range
  · exact nodup_loop2 List.nodup_range fun _ _ => nodup_span
  · exact nodup_loop2 List.nodup_range fun _ _ => List.nodup_range

section
variable [CommRing α] [StarRing α] [DecidableEq α]

omit [DecidableEq α] in
theorem coreLacpy_run {sel : Stor} {t : Trans} {m n : Nat} (h : t = .noTrans ∨ sel ≠ some .lower ∨ m ≤ n)
    {a b : M} (s : Store M α) {i j : Nat} (hij : if t = .noTrans then box m n i j else box n m i j) :
    (coreLacpy sel t m n a b).run s b i j =
      if stOK (stTr t sel) i j then opE t (s a) i j else s b i j := by
  unfold coreLacpy
  rw [op1_self]
  by_cases ht : t = .noTrans
  · rw [if_pos ht] at hij
    simp only [stTr, if_pos ht]
    by_cases hs : stOK sel i j
    · have hmem : (i, j) ∈ (lacpyIdx sel t m n).map (lacpyDst t) := by
        rw [mem_lacpyDst, if_pos ht, mem_lacpyIdx h]; exact ⟨hij.1, hij.2, hs⟩
      rw [paste_in hmem, sweep_spec nodup_lacpyDst, if_pos hmem, if_pos hs]
      simp [ht, trC, opE]
    · rw [paste_out, if_neg hs]
      rw [mem_lacpyDst, if_pos ht, mem_lacpyIdx h]; exact fun h' => hs h'.2.2
  · rw [if_neg ht] at hij
    simp only [stTr, if_neg ht, stOK_flip]
    by_cases hs : stOK sel j i
    · have hmem : (i, j) ∈ (lacpyIdx sel t m n).map (lacpyDst t) := by
        rw [mem_lacpyDst, if_neg ht, mem_lacpyIdx h]; exact ⟨hij.2, hij.1, hs⟩
      rw [paste_in hmem, sweep_spec nodup_lacpyDst, if_pos hmem, if_pos hs]
      cases t <;> simp_all [trC, opE]
    · rw [paste_out, if_neg hs]
      rw [mem_lacpyDst, if_neg ht, mem_lacpyIdx h]; exact fun h' => hs h'.2.2

theorem coreAdd_local {sel : Stor} {t : Trans} {m n : Nat} {alpha beta : α} {a b : M} :
    (coreAdd sel t m n alpha a beta b).Local := by
  refine op1_local fun A A' C C' hA hC i j hij => ?_
  split
  · exact hC i j hij
  · rw [sweep_spec nodup_addIdx, sweep_spec nodup_addIdx, if_pos hij, if_pos hij, hC i j hij]
    cases t <;> simp only [opE] <;> rw [hA _ _ (by simpa using hij)]

theorem coreAdd_run {sel : Stor} {t : Trans} {m n : Nat} {alpha beta : α} {a b : M} (s : Store M α)
    {i j : Nat} (hij : box m n i j) :
    (coreAdd sel t m n alpha a beta b).run s b i j =
      if stOK sel i j then beta * s b i j + alpha * opE t (s a) i j else s b i j := by
  unfold coreAdd
  rw [op1_self]
  by_cases hs : stOK sel i j
  · have hmem : (i, j) ∈ addIdx sel m n := mem_addIdx.mpr ⟨hij.1, hij.2, hs⟩
    rw [paste_in hmem, if_pos hs]
    split
    · rename_i h
      rcases h with h | h | ⟨h, h'⟩
      · have := hij.1; omega
      · have := hij.2; omega
      · rw [h, h']; simp
    · rw [sweep_spec nodup_addIdx, if_pos hmem]
  · rw [paste_out, if_neg hs]
    rw [mem_addIdx]; exact fun h => hs h.2.2

omit [StarRing α] [DecidableEq α] in
theorem coreLascl_run {dv : α → α → α} {sel : Stor} {cfrom cto : α} {m n : Nat} {a : M} (s : Store M α)
    {i j : Nat} (hij : box m n i j) :
    (coreLascl dv sel cfrom cto m n a).run s a i j =
      if stOK sel i j then dv cto cfrom * s a i j else s a i j := by
  unfold coreLascl
  rw [op0_self]
  by_cases hs : stOK sel i j
  · rw [paste_in ⟨hij, hs⟩, if_pos hs]
  · rw [paste_out fun h => hs h.2, if_neg hs]

end

theorem coreLaset_run {sel : Stor} {m n : Nat} {alpha beta : α} {a : M} (s : Store M α)
    {i j : Nat} (hij : box m n i j) :
    (coreLaset sel 0 0 m n alpha beta a).run s a i j =
      if stOK sel i j then (if i = j then beta else alpha) else s a i j := by
  unfold coreLaset
  rw [op0_self]
  by_cases hs : stOK sel i j
  · rw [paste_in ⟨Nat.zero_le _, by have := hij.1; omega, Nat.zero_le _, by have := hij.2; omega, hs⟩, if_pos hs]
    simp
  · rw [paste_out fun h => hs h.2.2.2.2, if_neg hs]

/-! ### Loop nests: what they compute -/

theorem lasetDim_al {b off m t : Nat} (hb : 0 < b) (ho : off % b = 0) (ht : t < ceilDiv m b) :
    lasetDim off m b (ceilDiv m b) t = tdim m b t := by
  have hm : ∀ t, t < ceilDiv m b ↔ t * b < m := fun t => lt_ceilDiv hb
  have h1 := (hm t).mp ht
  have h2 := hm (t + 1)
  rw [Nat.add_mul, Nat.one_mul] at h2
  have e1 : t = ceilDiv m b - 1 → (off + m + b - 1) % b + 1 = m - t * b := by
    intro h
    rw [show off + m + b - 1 = off + (m + b - 1) by omega, Nat.add_mod, ho, Nat.zero_add, Nat.mod_mod]
    rw [show m + b - 1 = (m - t * b - 1) + (t + 1) * b by rw [Nat.add_mul]; omega, Nat.add_mul_mod_self_right,
        Nat.mod_eq_of_lt (by omega)]
    omega
  have e2 : t = 0 → t * b = 0 := by rintro rfl; simp
  unfold lasetDim tdim
  split_ifs with h3 h4 h5
  · have := e2 h3.1; omega
  · have := e2 h4; omega
  · have := e1 h5; omega
  · omega

section
variable [CommRing α] [StarRing α] [DecidableEq α]

/-- The copy task for source tile `p`. -/
def lcTask (sel : Stor) (t : Trans) (A B : TMat M) (b : Nat) (p : Nat × Nat) : TTask (M × Nat × Nat) α :=
  coreLacpy (if p.1 = p.2 then sel else none) t (tdim A.d.m b p.1) (tdim A.d.n b p.2) (A.at' p.1 p.2)
    (if t = .noTrans then B.at' p.1 p.2 else B.at' p.2 p.1)

theorem map_congr_mem {ι κ : Type*} {l : List ι} {f g : ι → κ} (h : ∀ x ∈ l, f x = g x) :
    l.map f = l.map g := List.map_congr_left h

omit [DecidableEq α] in
theorem pzlacpy_eq {sel : Stor} {t : Trans} {A B : TMat M} {b : Nat} (hA : A.Al b) :
    pzlacpy (α := α) sel t A B = (rowIdx sel A.d.mt A.d.nt).map (lcTask sel t A B b) := by
  rcases sel with _ | _ | _ <;> simp only [pzlacpy, rowIdx, List.map_flatMap, List.map_append, List.map_map]
  · refine List.flatMap_congr fun m hm => List.map_congr_left fun n hn => ?_
    rw [List.mem_range] at hm hn
    simp only [Function.comp, lcTask, hA.mview hm, hA.nview hn, ite_self]
    split <;> simp_all
  all_goals
    refine List.flatMap_congr fun m hm => congrArg₂ _ ?_ (List.map_congr_left fun n hn => ?_)
    all_goals rw [List.mem_range] at hm
    · split
      · rename_i h
        simp only [List.map_cons, List.map_nil, lcTask, if_true, hA.mview hm, hA.nview h, ite_self]
      · rfl
    · rw [mem_span] at hn
      simp only [Function.comp, lcTask, hA.mview hm, hA.nview (show n < A.d.nt by omega),
        if_neg (show ¬ m = n by omega)]
      split <;> simp_all

omit [DecidableEq α] in
theorem pzlacpy_el {sel : Stor} {t : Trans} {A B : TMat M} {b : Nat} (hA : A.Al b) (hB : B.Al b)
    (hab : A.id ≠ B.id) (hm : B.d.m = if t = .noTrans then A.d.m else A.d.n)
    (hn : B.d.n = if t = .noTrans then A.d.n else A.d.m) (hsq : t = .noTrans ∨ A.d.m = A.d.n)
    (s : Store (M × Nat × Nat) α) {r c : Nat} (hr : r < B.d.m) (hc : c < B.d.n) :
    B.el (texec (pzlacpy sel t A B) s) r c =
      if stOK (stTr t sel) r c then opE t (A.el s) r c else B.el s r c := by
  have hb := hA.pos
  rw [pzlacpy_eq hA]
  by_cases ht : t = .noTrans
  · rw [if_pos ht] at hm hn
    have e : stTr t sel = sel := by simp [stTr, ht]
    rw [e]
    have hidx : SelIdx sel B.d.mt B.d.nt (rowIdx sel A.d.mt A.d.nt) := by
      rw [hB.mt_eq, hB.nt_eq, hm, hn, ← hA.mt_eq, ← hA.nt_eq]; exact rowIdx_sel _ _ _
    refine nest_el hB hidx (R := fun x => x = A.id) (fun h => hab h.symm) ?_ ?_ s hr hc ?_
    · intro p; unfold lcTask; rw [if_pos ht]; exact writes_op1 rfl
    · intro p; unfold lcTask; rw [if_pos ht]; exact Within.op1 coreLacpy_local (Or.inl rfl) (Or.inr rfl)
    · intro hst
      unfold lcTask
      rw [if_pos ht, coreLacpy_run (Or.inl ht) s (by
        rw [if_pos ht]; exact ⟨mod_lt_tdim hb (hm ▸ hr), mod_lt_tdim hb (hn ▸ hc)⟩)]
      have hv : opE t (s (A.at' (r / b) (c / b))) (r % b) (c % b) = opE t (A.el s) r c := by
        subst ht; simp [opE, TMat.el, hA.mb, hA.nb]
      rw [hv]
      congr 1
      simp only [stTr, if_pos ht]
      by_cases h : r / b = c / b <;> simp [h, stOK]
  · rw [if_neg ht] at hm hn
    have hsq' := hsq.resolve_left ht
    have e : stTr t sel = stFlip sel := by simp [stTr, ht]
    rw [e]
    have hidx : SelIdx (stFlip sel) B.d.mt B.d.nt ((rowIdx sel A.d.mt A.d.nt).map Prod.swap) := by
      rw [hB.mt_eq, hB.nt_eq, hm, hn, ← hA.mt_eq, ← hA.nt_eq]; exact (rowIdx_sel _ _ _).swap
    have el : (rowIdx sel A.d.mt A.d.nt).map (lcTask sel t A B b) =
        ((rowIdx sel A.d.mt A.d.nt).map Prod.swap).map (fun p => lcTask (α := α) sel t A B b p.swap) := by
      rw [List.map_map]; rfl
    rw [el]
    refine nest_el hB hidx (R := fun x => x = A.id) (fun h => hab h.symm) ?_ ?_ s hr hc ?_
    · intro p; unfold lcTask; rw [if_neg ht]; exact writes_op1 rfl
    · intro p; unfold lcTask; rw [if_neg ht]; exact Within.op1 coreLacpy_local (Or.inl rfl) (Or.inr rfl)
    · intro hst
      unfold lcTask
      have hsq2 : t = .noTrans ∨ (if c / b = r / b then sel else none) ≠ some .lower ∨
          tdim A.d.m b (c / b) ≤ tdim A.d.n b (r / b) := by
        by_cases h : c / b = r / b
        · right; right; rw [h, hsq']
        · right; left; simp [h]
      simp only [if_neg ht, Prod.swap]
      rw [coreLacpy_run hsq2 s (by
        rw [if_neg ht]; exact ⟨mod_lt_tdim hb (hm ▸ hr), mod_lt_tdim hb (hn ▸ hc)⟩)]
      have hv : opE t (s (A.at' (c / b) (r / b))) (r % b) (c % b) = opE t (A.el s) r c := by
        cases t <;> simp_all [opE, TMat.el, hA.mb, hA.nb]
      rw [hv]
      congr 1
      simp only [stTr, if_neg ht, stOK_flip]
      by_cases h : r / b = c / b
      · simp [h]
      · simp [h, Ne.symm h, stOK]

omit [DecidableEq α] in
theorem pzlacpy_writes {sel : Stor} {t : Trans} {A B : TMat M} {b : Nat} (hA : A.Al b) :
    Writes (fun x => x.1 = B.id) (pzlacpy (α := α) sel t A B) := by
  rw [pzlacpy_eq hA]
  refine Writes.map fun p _ => ?_
  unfold lcTask
  refine writes_op1 ?_
  split <;> rfl

omit [DecidableEq α] in
theorem pzlacpy_good {env : M → MatEnv} {sel : Stor} {t : Trans} {A B : TMat M} {b : Nat} (hA : Fits env b A)
    (hB : Fits env b B) (hm : B.d.m = if t = .noTrans then A.d.m else A.d.n)
    (hn : B.d.n = if t = .noTrans then A.d.n else A.d.m) (hsq : t = .noTrans ∨ A.d.m = A.d.n) :
    Good (evalid env) (pzlacpy (α := α) sel t A B) := by
  rw [pzlacpy_eq hA.al]
  refine Good.map fun p hp => Good.single coreLacpy_local op1_declared ?_
  have hsq2 : t = .noTrans ∨ (if p.1 = p.2 then sel else none) ≠ some .lower ∨
      tdim A.d.m b p.1 ≤ tdim A.d.n b p.2 := by
    rcases hsq with h | h
    · exact Or.inl h
    · by_cases hp : p.1 = p.2
      · right; right; rw [hp, h]
      · right; left; simp [hp]
  unfold lcTask coreLacpy
  refine op1_inside ?_ ?_
  · intro i j hij
    rw [mem_lacpyIdx hsq2] at hij
    exact hA.valid hij.1 hij.2.1
  · intro i j hij
    rw [mem_lacpyDst] at hij
    by_cases ht : t = .noTrans
    · rw [if_pos ht] at hm hn
      rw [if_pos ht, mem_lacpyIdx hsq2] at hij
      rw [if_pos ht]
      exact hB.valid (hm ▸ hij.1) (hn ▸ hij.2.1)
    · rw [if_neg ht] at hm hn
      rw [if_neg ht, mem_lacpyIdx hsq2] at hij
      rw [if_neg ht]
      exact hB.valid (hm ▸ hij.2.1) (hn ▸ hij.1)

theorem map_filter_flatMap {ι κ : Type*} (l : List ι) (p : ι → Bool) (f : ι → κ) :
    (l.filter p).map f = l.flatMap fun x => if p x = true then [f x] else [] := by
  induction l with
  | nil => rfl
  | cons x l ih =>
    rw [List.flatMap_cons, ← ih, List.filter_cons]
    split <;> simp

/-! laset -/

/-- The set task for tile `p`. -/
def lsTask (sel : Stor) (alpha beta : α) (A : TMat M) (b : Nat) (p : Nat × Nat) : TTask (M × Nat × Nat) α :=
  coreLaset (if p.1 = p.2 then sel else none) 0 0 (tdim A.d.m b p.1) (tdim A.d.n b p.2) alpha
    (if p.1 ≠ p.2 then alpha else beta) (A.at' p.1 p.2)

omit [CommRing α] [StarRing α] [DecidableEq α] in
theorem pzlaset_eq {sel : Stor} {alpha beta : α} {A : TMat M} {b : Nat} (hA : A.Al b) :
    pzlaset sel alpha beta A =
      (loop2 (List.range A.d.mt) fun i => (List.range A.d.nt).filter fun j => decide (stOK sel i j)).map
        (lsTask sel alpha beta A b) := by
  unfold pzlaset loop2
  simp only [List.map_flatMap, List.map_map]
  refine List.flatMap_congr fun i hi => ?_
  rw [List.mem_range] at hi
  rw [map_filter_flatMap]
  refine List.flatMap_congr fun j hj => ?_
  rw [List.mem_range] at hj
  have e : (sel = none ∨ (sel = some .lower ∧ i ≥ j) ∨ (sel = some .upper ∧ i ≤ j)) ↔
      decide (stOK sel i j) = true := by
    rw [decide_eq_true_iff]; rcases sel with _ | _ | _ <;> simp [stOK, inTri]
  have hbi : A.d.i % A.d.mb = 0 := by rw [hA.mb]; exact hA.i
  have hbj : A.d.j % A.d.nb = 0 := by rw [hA.nb]; exact hA.j
  have hmt := hA.mt_eq
  have hnt := hA.nt_eq
  have d1 : lasetDim A.d.i A.d.m A.d.mb A.d.mt i = tdim A.d.m b i := by
    rw [hA.mb, hmt]; exact lasetDim_al hA.pos hA.i (hmt ▸ hi)
  have d2 : lasetDim A.d.j A.d.n A.d.nb A.d.nt j = tdim A.d.n b j := by
    rw [hA.nb, hnt]; exact lasetDim_al hA.pos hA.j (hnt ▸ hj)
  simp only [e, d1, d2, hbi, hbj, ite_self, Function.comp, lsTask]

omit [CommRing α] [StarRing α] [DecidableEq α] in
theorem coreLaset_local {sel : Stor} {i0 j0 m n : Nat} {alpha beta : α} {a : M} :
    (coreLaset sel i0 j0 m n alpha beta a).Local := op0_local fun _ _ _ _ _ _ => rfl

omit [CommRing α] [StarRing α] [DecidableEq α] in
theorem pzlaset_el {sel : Stor} {alpha beta : α} {A : TMat M} {b : Nat} (hA : A.Al b)
    (s : Store (M × Nat × Nat) α) {r c : Nat} (hr : r < A.d.m) (hc : c < A.d.n) :
    A.el (texec (pzlaset sel alpha beta A) s) r c =
      if stOK sel r c then (if r = c then beta else alpha) else A.el s r c := by
  have hb := hA.pos
  rw [pzlaset_eq hA]
  refine nest_el (task := lsTask sel alpha beta A b) hA (fullIdx_sel _ _ _) (R := fun _ => False) id
    (fun p => by unfold lsTask; exact writes_op0 rfl)
    (fun p => Within.op0 coreLaset_local (Or.inr rfl)) s hr hc ?_
  intro hst
  unfold lsTask
  rw [coreLaset_run s ⟨mod_lt_tdim hb hr, mod_lt_tdim hb hc⟩]
  have hv : (if r % b = c % b then (if r / b ≠ c / b then alpha else beta) else alpha) =
      if r = c then beta else alpha := by
    have h1 := divmod r b
    have h2 := divmod c b
    by_cases h : r = c
    · subst h; simp
    · rw [if_neg h]
      by_cases h' : r % b = c % b
      · rw [if_pos h', if_pos]
        intro h''; apply h; rw [← h1, ← h2, h', h'']
      · rw [if_neg h']
  simp only [hv]
  congr 1
  by_cases h : r / b = c / b <;> simp [h, stOK]

omit [CommRing α] [StarRing α] [DecidableEq α] in
theorem pzlaset_writes {sel : Stor} {alpha beta : α} {A : TMat M} {b : Nat} (hA : A.Al b) :
    Writes (fun x => x.1 = A.id) (pzlaset sel alpha beta A) := by
  rw [pzlaset_eq hA]
  refine Writes.map fun p _ => ?_
  unfold lsTask; exact writes_op0 rfl

omit [CommRing α] [StarRing α] [DecidableEq α] in
theorem pzlaset_good {env : M → MatEnv} {sel : Stor} {alpha beta : α} {A : TMat M} {b : Nat}
    (hA : FitsOn env b (stOK sel) A) : Good (evalid env) (pzlaset sel alpha beta A) := by
  rw [pzlaset_eq hA.al]
  refine Good.map fun p hp => ?_
  unfold lsTask
  refine Good.single coreLaset_local op0_declared (op0_inside ?_)
  rw [(fullIdx_sel _ _ _).mem] at hp
  intro i j hij
  exact hA.validOn hp.2.2 (by have := hij.2.1; omega) (by have := hij.2.2.2.1; omega)

/-! lascl -/

/-- The scale task for tile `p`. -/
def scTask (dv : α → α → α) (sel : Stor) (cfrom cto : α) (A : TMat M) (b : Nat) (p : Nat × Nat) :
    TTask (M × Nat × Nat) α :=
  coreLascl dv (if p.1 = p.2 then sel else none) cfrom cto (tdim A.d.m b p.1) (tdim A.d.n b p.2)
    (A.at' p.1 p.2)

omit [StarRing α] [DecidableEq α] in
theorem pzlascl_eq {dv : α → α → α} {sel : Stor} {cfrom cto : α} {A : TMat M} {b : Nat} (hA : A.Al b) :
    pzlascl dv sel cfrom cto A = (rowIdx sel A.d.mt A.d.nt).map (scTask dv sel cfrom cto A b) := by
  rcases sel with _ | _ | _ <;> simp only [pzlascl, rowIdx, List.map_flatMap, List.map_append, List.map_map]
  · refine List.flatMap_congr fun m hm => List.map_congr_left fun n hn => ?_
    rw [List.mem_range] at hm hn
    simp only [Function.comp, scTask, hA.mview hm, hA.nview hn, ite_self]
  all_goals
    refine List.flatMap_congr fun m hm => congrArg₂ _ ?_ (List.map_congr_left fun n hn => ?_)
    all_goals rw [List.mem_range] at hm
    · split
      · rename_i h
        simp only [List.map_cons, List.map_nil, scTask, if_true, hA.mview hm, hA.nview h]
      · rfl
    · rw [mem_span] at hn
      simp only [Function.comp, scTask, hA.mview hm, hA.nview (show n < A.d.nt by omega),
        if_neg (show ¬ m = n by omega)]

omit [StarRing α] [DecidableEq α] in
theorem coreLascl_local {dv : α → α → α} {sel : Stor} {cfrom cto : α} {m n : Nat} {a : M} :
    (coreLascl dv sel cfrom cto m n a).Local :=
  op0_local fun _ _ h i j hij => by rw [h i j hij]

omit [StarRing α] [DecidableEq α] in
theorem pzlascl_el {dv : α → α → α} {sel : Stor} {cfrom cto : α} {A : TMat M} {b : Nat} (hA : A.Al b)
    (s : Store (M × Nat × Nat) α) {r c : Nat} (hr : r < A.d.m) (hc : c < A.d.n) :
    A.el (texec (pzlascl dv sel cfrom cto A) s) r c =
      if stOK sel r c then dv cto cfrom * A.el s r c else A.el s r c := by
  have hb := hA.pos
  rw [pzlascl_eq hA]
  refine nest_el (task := scTask dv sel cfrom cto A b) hA (rowIdx_sel _ _ _) (R := fun _ => False) id
    (fun p => by unfold scTask; exact writes_op0 rfl)
    (fun p => Within.op0 coreLascl_local (Or.inr rfl)) s hr hc ?_
  intro hst
  unfold scTask
  rw [coreLascl_run s ⟨mod_lt_tdim hb hr, mod_lt_tdim hb hc⟩]
  simp only [TMat.el, hA.mb, hA.nb]
  congr 1
  by_cases h : r / b = c / b <;> simp [h, stOK]

omit [StarRing α] [DecidableEq α] in
theorem pzlascl_writes {dv : α → α → α} {sel : Stor} {cfrom cto : α} {A : TMat M} {b : Nat} (hA : A.Al b) :
    Writes (fun x => x.1 = A.id) (pzlascl dv sel cfrom cto A) := by
  rw [pzlascl_eq hA]
  refine Writes.map fun p _ => ?_
  unfold scTask; exact writes_op0 rfl

omit [StarRing α] [DecidableEq α] in
theorem pzlascl_good {env : M → MatEnv} {dv : α → α → α} {sel : Stor} {cfrom cto : α} {A : TMat M} {b : Nat}
    (hA : FitsOn env b (stOK sel) A) : Good (evalid env) (pzlascl dv sel cfrom cto A) := by
  rw [pzlascl_eq hA.al]
  refine Good.map fun p hp => ?_
  unfold scTask
  refine Good.single coreLascl_local op0_declared (op0_inside ?_)
  rw [(rowIdx_sel _ _ _).mem] at hp
  intro i j hij
  exact hA.validOn hp.2.2 hij.1.1 hij.1.2

/-! geadd, tradd -/

/-- The add task for tile `p`. -/
def adTask (sel : Stor) (t : Trans) (alpha : α) (A : TMat M) (beta : α) (B : TMat M) (b : Nat)
    (p : Nat × Nat) : TTask (M × Nat × Nat) α :=
  coreAdd (if p.1 = p.2 then sel else none) t (tdim B.d.m b p.1) (tdim B.d.n b p.2) alpha
    (if t = .noTrans then A.at' p.1 p.2 else A.at' p.2 p.1) beta (B.at' p.1 p.2)

/-- Index list of the two routines. -/
def adIdx (sel : Stor) (mt nt : Nat) : List (Nat × Nat) :=
  match sel with
  | none => rowIdx none mt nt
  | some u => arrowIdx u mt nt

theorem adIdx_sel (sel : Stor) (mt nt : Nat) : SelIdx sel mt nt (adIdx sel mt nt) := by
  cases sel with
  | none => exact rowIdx_sel _ _ _
  | some u => exact arrowIdx_sel _ _ _

theorem pzgeadd_eq {t : Trans} {alpha beta : α} {A B : TMat M} {b : Nat} (hB : B.Al b) :
    pzgeadd t alpha A beta B = (adIdx none B.d.mt B.d.nt).map (adTask none t alpha A beta B b) := by
  simp only [pzgeadd, adIdx, rowIdx, List.map_flatMap, List.map_map]
  split
  all_goals
    rename_i ht
    refine List.flatMap_congr fun m hm => List.map_congr_left fun n hn => ?_
    rw [List.mem_range] at hm hn
    simp only [Function.comp, adTask, hB.mview hm, hB.nview hn, ite_self]
    first | rw [if_pos ht] | rw [if_neg ht]

theorem pztradd_eq {u : Uplo} {t : Trans} {alpha beta : α} {A B : TMat M} {b : Nat} (hB : B.Al b) :
    pztradd u t alpha A beta B = (adIdx (some u) B.d.mt B.d.nt).map (adTask (some u) t alpha A beta B b) := by
  simp only [pztradd, adIdx, arrowIdx, triPairs]
  cases u <;> by_cases ht : t = .noTrans
  all_goals
    simp only [if_true, if_false, reduceCtorEq, List.map_flatMap, List.map_map, List.map_cons, ht]
    refine List.flatMap_congr fun m hm => congrArg₂ _ ?_ (List.map_congr_left fun n hn => ?_)
    all_goals rw [List.mem_range] at hm
    · simp only [adTask, Prod.swap, if_true, hB.mview (show m < B.d.mt by omega),
        hB.nview (show m < B.d.nt by omega), ite_self]
    · rw [mem_span] at hn
      simp only [Function.comp, adTask, Prod.swap, if_neg (show ¬ m = n by omega), if_neg (show ¬ n = m by omega)]
      first
        | rw [hB.mview (show m < B.d.mt by omega), hB.nview (show n < B.d.nt by omega)]
        | rw [hB.mview (show n < B.d.mt by omega), hB.nview (show m < B.d.nt by omega)]
      first | rw [if_neg ht] | rw [if_pos trivial]

theorem ad_el {sel : Stor} {t : Trans} {alpha beta : α} {A B : TMat M} {b : Nat} (hA : A.Al b) (hB : B.Al b)
    (hab : A.id ≠ B.id) (s : Store (M × Nat × Nat) α) {r c : Nat} (hr : r < B.d.m) (hc : c < B.d.n) :
    B.el (texec ((adIdx sel B.d.mt B.d.nt).map (adTask sel t alpha A beta B b)) s) r c =
      if stOK sel r c then beta * B.el s r c + alpha * opE t (A.el s) r c else B.el s r c := by
  have hb := hA.pos
  refine nest_el (task := adTask sel t alpha A beta B b) hB (adIdx_sel _ _ _) (R := fun x => x = A.id) (fun h => hab h.symm)
    (fun p => by unfold adTask; exact writes_op1 rfl)
    (fun p => Within.op1 coreAdd_local (Or.inl (by split <;> rfl)) (Or.inr rfl)) s hr hc ?_
  intro hst
  unfold adTask
  rw [coreAdd_run s ⟨mod_lt_tdim hb hr, mod_lt_tdim hb hc⟩]
  have hv : opE t (s (if t = .noTrans then A.at' (r / b) (c / b) else A.at' (c / b) (r / b))) (r % b) (c % b) =
      opE t (A.el s) r c := by
    cases t <;> simp [opE, TMat.el, hA.mb, hA.nb]
  rw [hv]
  simp only [TMat.el, hB.mb, hB.nb]
  congr 1
  by_cases h : r / b = c / b <;> simp [h, stOK]

theorem ad_writes {sel : Stor} {t : Trans} {alpha beta : α} {A B : TMat M} {b : Nat} :
    Writes (fun x => x.1 = B.id) ((adIdx sel B.d.mt B.d.nt).map (adTask sel t alpha A beta B b)) := by
  refine Writes.map fun p _ => ?_
  unfold adTask; exact writes_op1 rfl

theorem ad_good {env : M → MatEnv} {sel : Stor} {t : Trans} {alpha beta : α} {A B : TMat M} {b : Nat}
    (hA : Fits env b A) (hB : Fits env b B) (hm : B.d.m = if t = .noTrans then A.d.m else A.d.n)
    (hn : B.d.n = if t = .noTrans then A.d.n else A.d.m) :
    Good (evalid env) ((adIdx sel B.d.mt B.d.nt).map (adTask sel t alpha A beta B b)) := by
  refine Good.map fun p hp => ?_
  unfold adTask
  refine Good.single coreAdd_local op1_declared (op1_inside ?_ ?_)
  · intro i j hij
    by_cases ht : t = .noTrans
    · rw [if_pos ht] at hm hn
      rw [if_pos ht, mem_addIdx] at hij
      rw [if_pos ht]
      exact hA.valid (hm ▸ hij.1) (hn ▸ hij.2.1)
    · rw [if_neg ht] at hm hn
      rw [if_neg ht, mem_addIdx] at hij
      rw [if_neg ht]
      exact hA.valid (hn ▸ hij.2.1) (hm ▸ hij.1)
  · intro i j hij
    rw [mem_addIdx] at hij
    exact hB.valid hij.1 hij.2.1

end

end Verif.Tile

/-
The kernels that apply the reflectors of a tile pair: core_blas/core_zpamm.c, core_blas/core_zparfb.c,
core_blas/core_ztsmqr.c, core_blas/core_zttmqr.c, core_blas/core_ztsmlq.c, core_blas/core_zttmlq.c, statement by
statement.  Elsewhere these kernels are tasks given by their result (`stmqrL`, `stmqrR`, `stmlqL`, `stmlqR`); here the
result is proved.
-/
import Verif.Trmm
import Verif.Lq

namespace Verif.Pent

open Verif.Layout Verif.Tile Verif.Qr Finset Matrix

universe u v

variable {α : Type v} [CommRing α] [StarRing α]

/-! ### Calls of BLAS and LAPACK -/

/-- The array as seen from the pointer `&A[ld*c+r]`. -/
def sub (r c : Nat) (A : Tl α) : Tl α := fun i j => A (r + i) (c + j)

/-- The array after `B` has been stored through the pointer `&A[ld*c+r]`. -/
def put (r c : Nat) (A B : Tl α) : Tl α := fun i j => if r ≤ i ∧ c ≤ j then B (i - r) (j - c) else A i j

/-- `cblas_zgemm` (BLAS documentation), in exact arithmetic. -/
def gemmF (ta tb : Trans) (m n k : Nat) (alpha : α) (A B : Tl α) (beta : α) (C : Tl α) : Tl α := fun i j =>
  if i < m ∧ j < n then beta * C i j + alpha * ∑ l ∈ range k, opE ta A i l * opE tb B l j else C i j

/-- `cblas_ztrmm` with `CblasNonUnit` (BLAS documentation), in exact arithmetic. -/
def trmmF (sd : Side) (u : Uplo) (t : Trans) (m n : Nat) (alpha : α) (A B : Tl α) : Tl α := fun i j =>
  if i < m ∧ j < n then trmmK sd u t .nonUnit m n alpha A B i j else B i j

/-- `LAPACKE_zlacpy_work` of a general matrix (LAPACK documentation). -/
def lacpyF (m n : Nat) (A B : Tl α) : Tl α := fun i j => if i < m ∧ j < n then A i j else B i j

/-- `n` calls of `cblas_zaxpy`, one per column of length `m`. -/
def axpyF (m n : Nat) (a : α) (X Y : Tl α) : Tl α := fun i j => if i < m ∧ j < n then Y i j + a * X i j else Y i j

/-! ### core_zpamm -/

/-- `PlasmaColumnwise`, `PlasmaRowwise`. -/
inductive Storev | columnwise | rowwise
  deriving DecidableEq, Repr

/-- `PlasmaW`, `PlasmaA2`. -/
inductive POp | w | a2
  deriving DecidableEq, Repr

/-- `plasma_core_zpamm_w` (core_blas/core_zpamm.c:313-444): the new `W`.  `vi2`, `vi3` are pairs of a row and a column
instead of offsets.  The combinations that are not implemented leave `W` unchanged. -/
def pammW (sd : Side) (t : Trans) (u : Uplo) (m n k l : Nat) (vi2 vi3 : Nat × Nat) (A1 A2 V W : Tl α) : Tl α :=
  if sd = .left then
    if (t = .conjTrans ∧ u = .upper) ∨ (t = .noTrans ∧ u = .lower) then
      let W := lacpyF l n (sub (k - l) 0 A2) W
      let W := if 0 < l then
          let W := trmmF .left u t l n 1 (sub vi2.1 vi2.2 V) W
          if l < k then gemmF t .noTrans l n (k - l) 1 V A2 1 W else W
        else W
      let W := if l < m then put l 0 W (gemmF t .noTrans (m - l) n k 1 (sub vi3.1 vi3.2 V) A2 0 (sub l 0 W)) else W
      axpyF m n 1 A1 W
    else W
  else
    if (t = .conjTrans ∧ u = .upper) ∨ (t = .noTrans ∧ u = .lower) then W
    else
      let W := if 0 < l then
          let W := lacpyF m l (sub 0 (k - l) A2) W
          let W := trmmF .right u t m l 1 (sub vi2.1 vi2.2 V) W
          if l < k then gemmF .noTrans t m l (k - l) 1 A2 V 1 W else W
        else W
      let W := if l < n then put 0 l W (gemmF .noTrans t m (n - l) k 1 A2 (sub vi3.1 vi3.2 V) 0 (sub 0 l W)) else W
      axpyF m n 1 A1 W

/-- `plasma_core_zpamm_a2` (core_blas/core_zpamm.c:447-560): the new `A2` and `W`. -/
def pammA2 (sd : Side) (t : Trans) (u : Uplo) (m n k l : Nat) (vi2 vi3 : Nat × Nat) (A2 V W : Tl α) : Tl α × Tl α :=
  if sd = .left then
    if (t = .conjTrans ∧ u = .upper) ∨ (t = .noTrans ∧ u = .lower) then (A2, W)
    else
      let A2 := if l < m then gemmF t .noTrans (m - l) n l (-1) V W 1 A2 else A2
      let W := trmmF .left u t l n 1 (sub vi2.1 vi2.2 V) W
      let A2 := put (m - l) 0 A2 (axpyF l n (-1) W (sub (m - l) 0 A2))
      let A2 := if l < k then gemmF t .noTrans m n (k - l) (-1) (sub vi3.1 vi3.2 V) (sub l 0 W) 1 A2 else A2
      (A2, W)
  else
    if (t = .conjTrans ∧ u = .upper) ∨ (t = .noTrans ∧ u = .lower) then
      let A2 := if l < k then gemmF .noTrans t m n (k - l) (-1) (sub 0 l W) (sub vi3.1 vi3.2 V) 1 A2 else A2
      let A2 := if l < n then gemmF .noTrans t m (n - l) l (-1) W V 1 A2 else A2
      if 0 < l then
        let W := trmmF .right u t m l (-1) (sub vi2.1 vi2.2 V) W
        (put 0 (n - l) A2 (axpyF m l 1 W (sub 0 (n - l) A2)), W)
      else (A2, W)
    else (A2, W)

/-- `plasma_core_zpamm` (core_blas/core_zpamm.c:173-310): the new `A2` and `W`.  The arguments pass the checks of lines
181-240. -/
def zpamm (op : POp) (sd : Side) (st : Storev) (m n k l : Nat) (A1 A2 V W : Tl α) : Tl α × Tl α :=
  if m = 0 ∨ n = 0 ∨ k = 0 then (A2, W)
  else
    let u : Uplo := if st = .columnwise then .upper else .lower
    let t : Trans :=
      if st = .columnwise then
        if sd = .left then (if op = .a2 then .noTrans else .conjTrans) else (if op = .w then .noTrans else .conjTrans)
      else
        if sd = .left then (if op = .w then .noTrans else .conjTrans) else (if op = .a2 then .noTrans else .conjTrans)
    let v2 : Nat :=
      if st = .columnwise then
        if sd = .left then (if t = .noTrans then m - l else k - l) else (if t = .noTrans then k - l else n - l)
      else
        if sd = .left then (if t = .noTrans then k - l else m - l) else (if t = .noTrans then n - l else k - l)
    let vi2 : Nat × Nat := if st = .columnwise then (v2, 0) else (0, v2)
    let vi3 : Nat × Nat := if st = .columnwise then (0, l) else (l, 0)
    if op = .w then (A2, pammW sd t u m n k l vi2 vi3 A1 A2 V W)
    else pammA2 sd t u m n k l vi2 vi3 A2 V W

/-! ### core_zparfb -/

/-- `plasma_core_zparfb` with `PlasmaForward` (core_blas/core_zparfb.c:128-313): the new `A1`, `A2`, `W`.  The arguments
pass the checks of lines 139-219.  The workspace has `W` stored with leading dimension `ldw`; BLAS rejects a leading
dimension smaller than the number of rows, which is the outcome `none`. -/
def zparfb (sd : Side) (t : Trans) (st : Storev) (m1 n1 m2 n2 k l ldw : Nat) (A1 A2 V T W : Tl α) :
    Option (Tl α × Tl α × Tl α) :=
  if m1 = 0 ∨ n1 = 0 ∨ m2 = 0 ∨ n2 = 0 ∨ k = 0 then some (A1, A2, W)
  else if sd = .left then
    if ldw < k then none else
    let W := (zpamm .w .left st k n1 m2 l A1 A2 V W).2
    let W := trmmF .left .upper t k n2 1 T W
    let A1 := axpyF k n1 (-1) W A1
    let r := zpamm .a2 .left st m2 n2 k l A1 A2 V W
    some (A1, r.1, r.2)
  else
    if ldw < m1 then none else
    let W := (zpamm .w .right st m1 k n2 l A1 A2 V W).2
    let W := trmmF .right .upper t m2 k 1 T W
    let A1 := axpyF m1 k (-1) W A1
    let r := zpamm .a2 .right st m2 n2 k l A1 A2 V W
    some (A1, r.1, r.2)

/-! ### The four kernels -/

/-- Values of `i` in `for (int i = i1; i > -1 && i < k; i += i3)` (core_blas/core_ztsmqr.c:219), at most `fuel` of
them. -/
def iters (k : Nat) (i3 : Int) : Nat → Int → List Nat
  | 0, _ => []
  | fuel + 1, i => if i > -1 ∧ i < k then i.toNat :: iters k i3 fuel (i + i3) else []

/-- The loop of the kernels (core_blas/core_ztsmqr.c:207-219): `fwd` selects the direction.  The step is not zero and
the values stay between `0` and `k`, so that `k` iterations are enough. -/
def blocks (fwd : Bool) (k ib : Nat) : List Nat :=
  if fwd then iters k (ib : Int) k 0 else iters k (-(ib : Int)) k (((k - 1) / ib * ib : Nat) : Int)

/-- Iterations of the body `f`, stopped by a rejected call. -/
def iter {σ : Type v} (f : Nat → σ → Option σ) : List Nat → σ → Option σ
  | [], s => some s
  | i :: is, s => (f i s).bind (iter f is)

/-- `A1`, `A2` and the workspace. -/
abbrev St (α : Type v) := Tl α × Tl α × Tl α

/-- `plasma_core_ztsmqr` (core_blas/core_ztsmqr.c:97-248), after the checks of the arguments. -/
def ztsmqr (sd : Side) (t : Trans) (m1 n1 m2 n2 k ib ldw : Nat) (V T : Tl α) (s : St α) : Option (St α) :=
  if m1 = 0 ∨ n1 = 0 ∨ m2 = 0 ∨ n2 = 0 ∨ k = 0 ∨ ib = 0 then some s
  else
    iter (fun i s =>
        let kb := min ib (k - i)
        let mi := if sd = .left then m1 - i else m1
        let ni := if sd = .left then n1 else n1 - i
        let ic := if sd = .left then i else 0
        let jc := if sd = .left then 0 else i
        (zparfb sd t .columnwise mi ni m2 n2 kb 0 ldw (sub ic jc s.1) s.2.1 (sub 0 i V) (sub 0 i T) s.2.2).map
          fun r => (put ic jc s.1 r.1, r.2))
      (blocks (decide ((sd = .left ∧ t ≠ .noTrans) ∨ (sd = .right ∧ t = .noTrans))) k ib) s

/-- `plasma_core_zttmqr` (core_blas/core_zttmqr.c:97-255), after the checks of the arguments. -/
def zttmqr (sd : Side) (t : Trans) (m1 n1 m2 n2 k ib ldw : Nat) (V T : Tl α) (s : St α) : Option (St α) :=
  if m1 = 0 ∨ n1 = 0 ∨ m2 = 0 ∨ n2 = 0 ∨ k = 0 ∨ ib = 0 then some s
  else
    iter (fun i s =>
        let kb := min ib (k - i)
        let mi := if sd = .left then kb else m1
        let ni := if sd = .left then n1 else kb
        let mi2 := if sd = .left then min (i + kb) m2 else m2
        let ni2 := if sd = .left then n2 else min (i + kb) n2
        let l := if sd = .left then min kb (max 0 (m2 - i)) else min kb (max 0 (n2 - i))
        let ic := if sd = .left then i else 0
        let jc := if sd = .left then 0 else i
        (zparfb sd t .columnwise mi ni mi2 ni2 kb l ldw (sub ic jc s.1) s.2.1 (sub 0 i V) (sub 0 i T) s.2.2).map
          fun r => (put ic jc s.1 r.1, r.2))
      (blocks (decide ((sd = .left ∧ t ≠ .noTrans) ∨ (sd = .right ∧ t = .noTrans))) k ib) s

/-- `plasma_core_ztsmlq` (core_blas/core_ztsmlq.c:97-252), after the checks of the arguments. -/
def ztsmlq (sd : Side) (t : Trans) (m1 n1 m2 n2 k ib ldw : Nat) (V T : Tl α) (s : St α) : Option (St α) :=
  if m1 = 0 ∨ n1 = 0 ∨ m2 = 0 ∨ n2 = 0 ∨ k = 0 ∨ ib = 0 then some s
  else
    let t' : Trans := if t = .noTrans then .conjTrans else .noTrans
    iter (fun i s =>
        let kb := min ib (k - i)
        let mi := if sd = .left then m1 - i else m1
        let ni := if sd = .left then n1 else n1 - i
        let ic := if sd = .left then i else 0
        let jc := if sd = .left then 0 else i
        (zparfb sd t' .rowwise mi ni m2 n2 kb 0 ldw (sub ic jc s.1) s.2.1 (sub i 0 V) (sub 0 i T) s.2.2).map
          fun r => (put ic jc s.1 r.1, r.2))
      (blocks (decide ((sd = .left ∧ t = .noTrans) ∨ (sd = .right ∧ t ≠ .noTrans))) k ib) s

/-- `plasma_core_zttmlq` (core_blas/core_zttmlq.c:95-256), after the checks of the arguments. -/
def zttmlq (sd : Side) (t : Trans) (m1 n1 m2 n2 k ib ldw : Nat) (V T : Tl α) (s : St α) : Option (St α) :=
  if m1 = 0 ∨ n1 = 0 ∨ m2 = 0 ∨ n2 = 0 ∨ k = 0 ∨ ib = 0 then some s
  else
    let t' : Trans := if t = .noTrans then .conjTrans else .noTrans
    iter (fun i s =>
        let kb := min ib (k - i)
        let mi := if sd = .left then kb else m1
        let ni := if sd = .left then n1 else kb
        let mi2 := if sd = .left then min (i + kb) m2 else m2
        let ni2 := if sd = .left then n2 else min (i + kb) n2
        let l := if sd = .left then min kb (max 0 (m2 - i)) else min kb (max 0 (n2 - i))
        let ic := if sd = .left then i else 0
        let jc := if sd = .left then 0 else i
        (zparfb sd t' .rowwise mi ni mi2 ni2 kb l ldw (sub ic jc s.1) s.2.1 (sub i 0 V) (sub 0 i T) s.2.2).map
          fun r => (put ic jc s.1 r.1, r.2))
      (blocks (decide ((sd = .left ∧ t = .noTrans) ∨ (sd = .right ∧ t ≠ .noTrans))) k ib) s

/-- `LAPACKE_zlarfb_work` with `PlasmaForward` (LAPACK documentation of zlarfb): `op(H) C` or `C op(H)` for the block
reflector `H = I - V T V^H` whose `k` vectors are stored in `V`, below a unit diagonal (columnwise) or to the right of
it (rowwise). -/
def larfbF (sd : Side) (t : Trans) (st : Storev) (m n k : Nat) (V T C : Tl α) : Tl α := fun i j =>
  let v : Tl α := geV (if st = .columnwise then V else cT V)
  if i < m ∧ j < n then
    if sd = .left then
      C i j - ∑ q ∈ range k, v i q * ∑ p ∈ range k, opE t (trE .upper .nonUnit T) q p *
        ∑ r ∈ range m, star (v r p) * C r j
    else
      C i j - ∑ q ∈ range k, (∑ p ∈ range k, (∑ r ∈ range n, C i r * v r p) * opE t (trE .upper .nonUnit T) p q) *
        star (v j q)
  else C i j

/-- `plasma_core_zunmqr` (core_blas/core_zunmqr.c:118-233), after the checks of the arguments: the new `C`. -/
def zunmqr (sd : Side) (t : Trans) (m n k ib : Nat) (A T C : Tl α) : Tl α :=
  if m = 0 ∨ n = 0 ∨ k = 0 then C
  else
    (blocks (decide ((sd = .left ∧ t ≠ .noTrans) ∨ (sd = .right ∧ t = .noTrans))) k ib).foldl
      (fun C i =>
        let kb := min ib (k - i)
        let mi := if sd = .left then m - i else m
        let ni := if sd = .left then n else n - i
        let ic := if sd = .left then i else 0
        let jc := if sd = .left then 0 else i
        put ic jc C (larfbF sd t .columnwise mi ni kb (sub i i A) (sub 0 i T) (sub ic jc C))) C

/-- `plasma_core_zunmlq` (core_blas/core_zunmlq.c:118-236), after the checks of the arguments: the new `C`. -/
def zunmlq (sd : Side) (t : Trans) (m n k ib : Nat) (A T C : Tl α) : Tl α :=
  if m = 0 ∨ n = 0 ∨ k = 0 then C
  else
    let t' : Trans := if t = .noTrans then .conjTrans else .noTrans
    (blocks (decide ((sd = .left ∧ t = .noTrans) ∨ (sd = .right ∧ t ≠ .noTrans))) k ib).foldl
      (fun C i =>
        let kb := min ib (k - i)
        let mi := if sd = .left then m - i else m
        let ni := if sd = .left then n else n - i
        let ic := if sd = .left then i else 0
        let jc := if sd = .left then 0 else i
        put ic jc C (larfbF sd t' .rowwise mi ni kb (sub i i A) (sub 0 i T) (sub ic jc C))) C

/-- Leading dimension of the workspace in the tasks of the QR kernels (core_blas/core_ztsmqr.c:269,
core_blas/core_zttmqr.c:276). -/
def ldQr (sd : Side) (m1 ib : Nat) : Nat := if sd = .left then ib else m1

/-- Leading dimension of the workspace in the tasks of the LQ kernels (core_blas/core_ztsmlq.c:273,
core_blas/core_zttmlq.c:277): for `PlasmaRight` the number of columns of `A1`, though the workspace has as many rows
as `A1`. -/
def ldLq (sd : Side) (n1 ib : Nat) : Nat := if sd = .left then ib else n1

/-! ### The loop -/

theorem iters_fwd {k ib : Nat} (hib : 0 < ib) : ∀ (fuel b : Nat), k ≤ b * ib + fuel →
    iters k (ib : Int) fuel ((b * ib : Nat) : Int) = (List.range' b (ceilDiv k ib - b)).map (· * ib) := by
  intro fuel
  induction fuel with
  | zero =>
    intro b hf
    have h : ¬ b < ceilDiv k ib := fun h => by have := (lt_ceilDiv hib).1 h; omega
    rw [Nat.sub_eq_zero_of_le (Nat.le_of_not_lt h)]
    rfl
  | succ f ih =>
    intro b hf
    unfold iters
    by_cases h : b < ceilDiv k ib
    · have h1 := (lt_ceilDiv hib).1 h
      rw [if_pos ⟨by omega, by exact_mod_cast h1⟩]
      have e : ceilDiv k ib - b = (ceilDiv k ib - (b + 1)) + 1 := by omega
      have e2 : ((b * ib : Nat) : Int) + (ib : Int) = (((b + 1) * ib : Nat) : Int) := by push_cast; ring
      rw [e, List.range'_succ, List.map_cons, e2, ih (b + 1) (by rw [Nat.succ_mul]; omega)]
      rfl
    · have h1 : ¬ b * ib < k := fun h' => h ((lt_ceilDiv hib).2 h')
      rw [if_neg (by rintro ⟨_, h2⟩; exact h1 (by exact_mod_cast h2)), Nat.sub_eq_zero_of_le (Nat.le_of_not_lt h)]
      rfl

theorem iters_bwd {k ib : Nat} (hib : 0 < ib) : ∀ (b fuel : Nat), b < fuel → b * ib < k →
    iters k (-(ib : Int)) fuel ((b * ib : Nat) : Int) = (List.range (b + 1)).reverse.map (· * ib) := by
  intro b
  induction b with
  | zero =>
    intro fuel hf hk
    obtain ⟨f, rfl⟩ : ∃ f, fuel = f + 1 := ⟨fuel - 1, by omega⟩
    unfold iters
    rw [if_pos ⟨by omega, by exact_mod_cast hk⟩]
    cases f with
    | zero => simp [iters]
    | succ f =>
      unfold iters
      rw [if_neg (by push_cast; omega)]
      simp
  | succ b ih =>
    intro fuel hf hk
    obtain ⟨f, rfl⟩ : ∃ f, fuel = f + 1 := ⟨fuel - 1, by omega⟩
    unfold iters
    rw [if_pos ⟨by omega, by exact_mod_cast hk⟩]
    have e2 : (((b + 1) * ib : Nat) : Int) + -(ib : Int) = ((b * ib : Nat) : Int) := by push_cast; ring
    rw [e2, ih f (by omega) (by rw [Nat.succ_mul] at hk; omega), List.range_succ (n := b + 1), List.reverse_append,
      List.map_append]
    rfl

/-- The loops visit every block once, forward or backward. -/
theorem blocks_eq {k ib : Nat} (hk : 0 < k) (hib : 0 < ib) (fwd : Bool) :
    blocks fwd k ib =
      ((if fwd then List.range (ceilDiv k ib) else (List.range (ceilDiv k ib)).reverse)).map (· * ib) := by
  unfold blocks
  cases fwd
  · have h1 : (k - 1) / ib + 1 = ceilDiv k ib := by
      unfold ceilDiv
      rw [show k + ib - 1 = (k - 1) + ib by omega, Nat.add_div_right _ hib]
    have h2 : (k - 1) / ib * ib < k := lt_of_le_of_lt (Nat.div_mul_le_self _ _) (by omega)
    have h3 : (k - 1) / ib < k := lt_of_le_of_lt (Nat.div_le_self _ _) (by omega)
    simp only [Bool.false_eq_true, if_false]
    rw [iters_bwd hib _ _ h3 h2, h1]
  · simp only [if_true]
    have := iters_fwd (k := k) hib k 0 (by omega)
    rw [List.range_eq_range']
    simpa using this

/-! ### One pentagonal multiplication -/

/-- The matrix of reflectors in `V`, one per column, whatever the storage. -/
def vc (st : Storev) (V : Tl α) : Tl α := if st = .columnwise then V else cT V

/-- The pentagonal part: `l` is the order of the triangle at the lower end of the first `l` of the columns of length
`d`. -/
def pent (st : Storev) (d l : Nat) (V : Tl α) (q i : Nat) : α := if i < l ∧ d - l + i < q then 0 else vc st V q i

theorem sum_split {d l : Nat} (h : l ≤ d) (f : Nat → α) :
    ∑ q ∈ range d, f q = ∑ q ∈ range (d - l), f q + ∑ q ∈ range l, f (d - l + q) := by
  conv_lhs => rw [show d = d - l + l by omega]
  exact Finset.sum_range_add _ _ _

theorem pammW_left {t : Trans} {u : Uplo} (h : (t = .conjTrans ∧ u = .upper) ∨ (t = .noTrans ∧ u = .lower))
    {m n k l : Nat} (hlk : l ≤ k) (v2 v3 : Nat × Nat) (A1 A2 V W : Tl α) {i j : Nat} (hi : i < m) (hj : j < n) :
    pammW .left t u m n k l v2 v3 A1 A2 V W i j = A1 i j +
      if i < l then ∑ q ∈ range (k - l), opE t V i q * A2 q j +
          ∑ q ∈ range l, opE t (trE u .nonUnit (sub v2.1 v2.2 V)) i q * A2 (k - l + q) j
        else ∑ q ∈ range k, opE t (sub v3.1 v3.2 V) (i - l) q * A2 q j := by
  unfold pammW
  rw [if_pos rfl, if_pos h]
  dsimp only
  unfold axpyF
  rw [if_pos ⟨hi, hj⟩, add_comm, one_mul]
  congr 1
  by_cases hil : i < l
  · rw [if_pos hil]
    have e : ∀ X Y : Tl α, (if l < m then put l 0 X Y else X) i j = X i j := by
      intro X Y
      split
      · exact if_neg (by omega)
      · rfl
    rw [e, if_pos (by omega : 0 < l)]
    have e2 : trmmF .left u t l n 1 (sub v2.1 v2.2 V) (lacpyF l n (sub (k - l) 0 A2) W) i j =
        ∑ q ∈ range l, opE t (trE u .nonUnit (sub v2.1 v2.2 V)) i q * A2 (k - l + q) j := by
      unfold trmmF trmmK
      rw [if_pos ⟨hil, hj⟩, if_pos rfl, one_mul]
      refine sum_congr rfl fun q hq => ?_
      unfold lacpyF sub
      rw [if_pos ⟨mem_range.1 hq, hj⟩, Nat.zero_add]
    by_cases hkl : l < k
    · rw [if_pos hkl]
      unfold gemmF
      rw [if_pos ⟨hil, hj⟩, e2, one_mul, one_mul, add_comm]
      rfl
    · rw [if_neg hkl, e2, show k - l = 0 by omega]
      simp
  · rw [if_neg hil, if_pos (by omega : l < m)]
    unfold put
    rw [if_pos ⟨by omega, by omega⟩]
    unfold gemmF
    rw [if_pos ⟨by omega, by omega⟩, zero_mul, zero_add, one_mul]
    rfl

theorem pammW_right {t : Trans} {u : Uplo} (h : ¬ ((t = .conjTrans ∧ u = .upper) ∨ (t = .noTrans ∧ u = .lower)))
    {m n k l : Nat} (hlk : l ≤ k) (v2 v3 : Nat × Nat) (A1 A2 V W : Tl α) {i j : Nat} (hi : i < m) (hj : j < n) :
    pammW .right t u m n k l v2 v3 A1 A2 V W i j = A1 i j +
      if j < l then ∑ q ∈ range (k - l), A2 i q * opE t V q j +
          ∑ q ∈ range l, A2 i (k - l + q) * opE t (trE u .nonUnit (sub v2.1 v2.2 V)) q j
        else ∑ q ∈ range k, A2 i q * opE t (sub v3.1 v3.2 V) q (j - l) := by
  unfold pammW
  rw [if_neg (by decide), if_neg h]
  dsimp only
  unfold axpyF
  rw [if_pos ⟨hi, hj⟩, add_comm, one_mul]
  congr 1
  by_cases hil : j < l
  · rw [if_pos hil]
    have e : ∀ X Y : Tl α, (if l < n then put 0 l X Y else X) i j = X i j := by
      intro X Y
      split
      · exact if_neg (by omega)
      · rfl
    rw [e, if_pos (by omega : 0 < l)]
    have e2 : trmmF .right u t m l 1 (sub v2.1 v2.2 V) (lacpyF m l (sub 0 (k - l) A2) W) i j =
        ∑ q ∈ range l, A2 i (k - l + q) * opE t (trE u .nonUnit (sub v2.1 v2.2 V)) q j := by
      unfold trmmF trmmK
      rw [if_pos ⟨hi, hil⟩, if_neg (by decide), one_mul]
      refine sum_congr rfl fun q hq => ?_
      unfold lacpyF
      rw [if_pos ⟨hi, mem_range.1 hq⟩]
      unfold sub
      rw [Nat.zero_add]
    by_cases hkl : l < k
    · rw [if_pos hkl]
      unfold gemmF
      rw [if_pos ⟨hi, hil⟩, e2, one_mul, one_mul, add_comm]
      rfl
    · rw [if_neg hkl, e2, show k - l = 0 by omega]
      simp
  · rw [if_neg hil, if_pos (by omega : l < n)]
    unfold put
    rw [if_pos ⟨by omega, by omega⟩]
    unfold gemmF
    rw [if_pos ⟨by omega, by omega⟩, zero_mul, zero_add, one_mul]
    rfl

theorem pammA2_left {t : Trans} {u : Uplo} (h : ¬ ((t = .conjTrans ∧ u = .upper) ∨ (t = .noTrans ∧ u = .lower)))
    {m n k l : Nat} (hlm : l ≤ m) (hlk : l ≤ k) (v2 v3 : Nat × Nat) (A2 V W : Tl α) (i j : Nat) :
    (pammA2 .left t u m n k l v2 v3 A2 V W).1 i j = if i < m ∧ j < n then A2 i j -
      ((if i < m - l then ∑ q ∈ range l, opE t V i q * W q j
          else ∑ q ∈ range l, opE t (trE u .nonUnit (sub v2.1 v2.2 V)) (i - (m - l)) q * W q j) +
        ∑ q ∈ range (k - l), opE t (sub v3.1 v3.2 V) i q * W (l + q) j) else A2 i j := by
  unfold pammA2
  rw [if_pos rfl, if_neg h]
  dsimp only
  have e1 : ∀ X : Tl α, (if l < k then gemmF t .noTrans m n (k - l) (-1) (sub v3.1 v3.2 V)
      (sub l 0 (trmmF .left u t l n 1 (sub v2.1 v2.2 V) W)) 1 X else X) i j = if i < m ∧ j < n then X i j -
        ∑ q ∈ range (k - l), opE t (sub v3.1 v3.2 V) i q * W (l + q) j else X i j := by
    intro X
    have e0 : ∀ q, sub l 0 (trmmF .left u t l n 1 (sub v2.1 v2.2 V) W) q j = W (l + q) j := by
      intro q
      unfold sub trmmF
      rw [if_neg (by omega), Nat.zero_add]
    by_cases hkl : l < k
    · rw [if_pos hkl]
      unfold gemmF
      split
      · rw [one_mul, neg_one_mul, ← sub_eq_add_neg]
        congr 1
        exact sum_congr rfl fun q _ => by rw [← e0]; rfl
      · rfl
    · rw [if_neg hkl, show k - l = 0 by omega]
      simp
  rw [e1]
  by_cases hij : i < m ∧ j < n
  · rw [if_pos hij, if_pos hij, ← sub_sub]
    congr 1
    unfold put
    by_cases hil : i < m - l
    · rw [if_neg (by omega), if_pos hil, if_pos (by omega : l < m)]
      unfold gemmF
      rw [if_pos ⟨hil, hij.2⟩, one_mul, neg_one_mul, ← sub_eq_add_neg]
      rfl
    · rw [if_pos ⟨by omega, by omega⟩, if_neg hil]
      unfold axpyF
      rw [if_pos ⟨by omega, by omega⟩, neg_one_mul, ← sub_eq_add_neg]
      have e2 : ∀ Y : Tl α, sub (m - l) 0 Y (i - (m - l)) (j - 0) = Y i j := by
        intro Y; unfold sub; congr 1 <;> omega
      rw [e2]
      congr 1
      · split
        · exact if_neg (by omega)
        · rfl
      · unfold trmmF trmmK
        rw [if_pos ⟨by omega, by omega⟩, if_pos rfl, one_mul]
        rfl
  · rw [if_neg hij, if_neg hij]
    unfold put
    by_cases hil : i < m - l
    · rw [if_neg (by omega)]
      split
      · exact if_neg (by omega)
      · rfl
    · rw [if_pos ⟨by omega, by omega⟩]
      unfold axpyF
      rw [if_neg (by omega)]
      have e2 : ∀ Y : Tl α, sub (m - l) 0 Y (i - (m - l)) (j - 0) = Y i j := by
        intro Y; unfold sub; congr 1 <;> omega
      rw [e2]
      split
      · exact if_neg (by omega)
      · rfl

theorem pammA2_right {t : Trans} {u : Uplo} (h : (t = .conjTrans ∧ u = .upper) ∨ (t = .noTrans ∧ u = .lower))
    {m n k l : Nat} (hln : l ≤ n) (hlk : l ≤ k) (v2 v3 : Nat × Nat) (A2 V W : Tl α) (i j : Nat) :
    (pammA2 .right t u m n k l v2 v3 A2 V W).1 i j = if i < m ∧ j < n then A2 i j -
      ((if j < n - l then ∑ q ∈ range l, W i q * opE t V q j
          else ∑ q ∈ range l, W i q * opE t (trE u .nonUnit (sub v2.1 v2.2 V)) q (j - (n - l))) +
        ∑ q ∈ range (k - l), W i (l + q) * opE t (sub v3.1 v3.2 V) q j) else A2 i j := by
  unfold pammA2
  rw [if_neg (by decide), if_pos h]
  dsimp only
  have e1 : (if l < k then gemmF .noTrans t m n (k - l) (-1) (sub 0 l W) (sub v3.1 v3.2 V) 1 A2 else A2) i j =
      if i < m ∧ j < n then A2 i j - ∑ q ∈ range (k - l), W i (l + q) * opE t (sub v3.1 v3.2 V) q j else A2 i j := by
    by_cases hkl : l < k
    · rw [if_pos hkl]
      unfold gemmF
      split
      · rw [one_mul, neg_one_mul, ← sub_eq_add_neg]
        congr 1
        exact sum_congr rfl fun q _ => by simp only [opE, sub, Nat.zero_add]
      · rfl
    · rw [if_neg hkl, show k - l = 0 by omega]
      simp
  set B : Tl α := if l < k then gemmF .noTrans t m n (k - l) (-1) (sub 0 l W) (sub v3.1 v3.2 V) 1 A2 else A2 with hB
  have e3 : (if l < n then gemmF .noTrans t m (n - l) l (-1) W V 1 B else B) i j =
      if i < m ∧ j < n - l then B i j - ∑ q ∈ range l, W i q * opE t V q j else B i j := by
    by_cases hn : l < n
    · rw [if_pos hn]
      unfold gemmF
      split
      · rw [one_mul, neg_one_mul, ← sub_eq_add_neg]
        rfl
      · rfl
    · rw [if_neg hn, if_neg (by omega)]
  set C : Tl α := if l < n then gemmF .noTrans t m (n - l) l (-1) W V 1 B else B with hC
  by_cases hl : 0 < l
  · rw [if_pos hl]
    dsimp only
    unfold put
    by_cases hjl : j < n - l
    · rw [if_neg (by omega), e3, e1]
      by_cases him : i < m
      · rw [if_pos ⟨him, hjl⟩, if_pos ⟨him, by omega⟩, if_pos ⟨him, by omega⟩, if_pos hjl]
        ring
      · rw [if_neg (by omega), if_neg (by omega), if_neg (by omega)]
    · rw [if_pos ⟨by omega, by omega⟩]
      have e2 : ∀ Y : Tl α, sub 0 (n - l) Y (i - 0) (j - (n - l)) = Y i j := by
        intro Y; unfold sub; congr 1 <;> omega
      unfold axpyF
      rw [e2, e3, if_neg (show ¬ (i < m ∧ j < n - l) by omega), e1]
      by_cases hij : i < m ∧ j < n
      · rw [if_pos (by omega), if_pos hij, if_pos hij, if_neg hjl]
        unfold trmmF trmmK
        rw [if_pos (by omega), if_neg (by decide), neg_one_mul, one_mul, Nat.sub_zero]
        ring
      · rw [if_neg (by omega), if_neg hij, if_neg hij]
  · have hl0 : l = 0 := by omega
    subst hl0
    rw [if_neg hl]
    show C i j = _
    rw [e3, e1]
    by_cases hij : i < m ∧ j < n
    · rw [if_pos hij, if_pos (by omega), if_pos hij, if_pos (by omega)]
      ring
    · rw [if_neg hij, if_neg (by omega), if_neg hij]

/-- `W = A1 + V^H A2` with the pentagonal `V`. -/
theorem zpamm_wl (st : Storev) {m n k l : Nat} (hm : 0 < m) (hn : 0 < n) (hk : 0 < k) (hlm : l ≤ m) (hlk : l ≤ k)
    (A1 A2 V W : Tl α) {i j : Nat} (hi : i < m) (hj : j < n) :
    (zpamm .w .left st m n k l A1 A2 V W).2 i j =
      A1 i j + ∑ q ∈ range k, star (pent st k l V q i) * A2 q j := by
  have key : ∀ (t : Trans) (u : Uplo) (v2 v3 : Nat × Nat),
      ((t = .conjTrans ∧ u = .upper) ∨ (t = .noTrans ∧ u = .lower)) →
      (∀ q i, opE t V i q = star (vc st V q i)) →
      (∀ q i, opE t (trE u .nonUnit (sub v2.1 v2.2 V)) i q = if i < q then 0 else star (vc st V (k - l + q) i)) →
      (∀ q i, opE t (sub v3.1 v3.2 V) i q = star (vc st V q (l + i))) →
      pammW .left t u m n k l v2 v3 A1 A2 V W i j = A1 i j + ∑ q ∈ range k, star (pent st k l V q i) * A2 q j := by
    intro t u v2 v3 h h1 h2 h3
    rw [pammW_left h hlk v2 v3 A1 A2 V W hi hj]
    congr 1
    split
    · next hil =>
      rw [sum_split hlk]
      congr 1
      · refine sum_congr rfl fun q hq => ?_
        have := mem_range.1 hq
        rw [h1]; unfold pent
        rw [if_neg (by omega)]
      · refine sum_congr rfl fun q hq => ?_
        rw [h2]; unfold pent
        by_cases hiq : i < q
        · rw [if_pos hiq, if_pos (by omega), star_zero]
        · rw [if_neg hiq, if_neg (by omega)]
    · next hil =>
      refine sum_congr rfl fun q _ => ?_
      rw [h3]; unfold pent
      rw [if_neg (by omega), show l + (i - l) = i by omega]
  unfold zpamm
  rw [if_neg (by omega)]
  cases st
  · simp only [if_true, reduceCtorEq, if_false]
    apply key
    · exact Or.inl ⟨rfl, rfl⟩
    · intro q i; rfl
    · intro q i
      simp only [opE, trE, sub, vc, inTri, if_true, reduceCtorEq, if_false, Nat.zero_add, cT]
      split_ifs <;> first | omega | simp | rfl
    · intro q i; simp [opE, sub, vc]
  · simp only [if_true, reduceCtorEq, if_false]
    apply key
    · exact Or.inr ⟨rfl, rfl⟩
    · intro q i; simp [opE, vc, cT]
    · intro q i
      simp only [opE, trE, sub, vc, inTri, if_true, reduceCtorEq, if_false, Nat.zero_add, cT]
      split_ifs <;> first | omega | simp | rfl
    · intro q i; simp [opE, sub, vc, cT]

/-- `W = A1 + A2 V` with the pentagonal `V`. -/
theorem zpamm_wr (st : Storev) {m n k l : Nat} (hm : 0 < m) (hn : 0 < n) (hk : 0 < k) (hlk : l ≤ k)
    (A1 A2 V W : Tl α) {i j : Nat} (hi : i < m) (hj : j < n) :
    (zpamm .w .right st m n k l A1 A2 V W).2 i j =
      A1 i j + ∑ q ∈ range k, A2 i q * pent st k l V q j := by
  have key : ∀ (t : Trans) (u : Uplo) (v2 v3 : Nat × Nat),
      ¬ ((t = .conjTrans ∧ u = .upper) ∨ (t = .noTrans ∧ u = .lower)) →
      (∀ q i, opE t V q i = vc st V q i) →
      (∀ q i, opE t (trE u .nonUnit (sub v2.1 v2.2 V)) q i = if i < q then 0 else vc st V (k - l + q) i) →
      (∀ q i, opE t (sub v3.1 v3.2 V) q i = vc st V q (l + i)) →
      pammW .right t u m n k l v2 v3 A1 A2 V W i j = A1 i j + ∑ q ∈ range k, A2 i q * pent st k l V q j := by
    intro t u v2 v3 h h1 h2 h3
    rw [pammW_right h hlk v2 v3 A1 A2 V W hi hj]
    congr 1
    split
    · next hil =>
      rw [sum_split hlk]
      congr 1
      · refine sum_congr rfl fun q hq => ?_
        have := mem_range.1 hq
        rw [h1]; unfold pent
        rw [if_neg (by omega)]
      · refine sum_congr rfl fun q hq => ?_
        rw [h2]; unfold pent
        by_cases hiq : j < q
        · rw [if_pos hiq, if_pos (by omega)]
        · rw [if_neg hiq, if_neg (by omega)]
    · next hil =>
      refine sum_congr rfl fun q _ => ?_
      rw [h3]; unfold pent
      rw [if_neg (by omega), show l + (j - l) = j by omega]
  unfold zpamm
  rw [if_neg (by omega)]
  cases st
  · simp only [if_true, reduceCtorEq, if_false]
    apply key
    · decide
    · intro q i; rfl
    · intro q i
      simp only [opE, trE, sub, vc, inTri, if_true, reduceCtorEq, if_false, Nat.zero_add]
      split_ifs <;> first | omega | simp | rfl
    · intro q i; simp [opE, sub, vc]
  · simp only [if_true, reduceCtorEq, if_false]
    apply key
    · decide
    · intro q i; simp [opE, vc, cT]
    · intro q i
      simp only [opE, trE, sub, vc, inTri, reduceCtorEq, if_false, Nat.zero_add, cT]
      split_ifs <;> first | omega | simp | rfl
    · intro q i; simp [opE, sub, vc, cT]

/-- `A2 = A2 - V W` with the pentagonal `V`. -/
theorem zpamm_a2l (st : Storev) {m n k l : Nat} (hm : 0 < m) (hn : 0 < n) (hk : 0 < k) (hlm : l ≤ m) (hlk : l ≤ k)
    (A1 A2 V W : Tl α) (i j : Nat) :
    (zpamm .a2 .left st m n k l A1 A2 V W).1 i j =
      if i < m ∧ j < n then A2 i j - ∑ q ∈ range k, pent st m l V i q * W q j else A2 i j := by
  have key : ∀ (t : Trans) (u : Uplo) (v2 v3 : Nat × Nat),
      ¬ ((t = .conjTrans ∧ u = .upper) ∨ (t = .noTrans ∧ u = .lower)) →
      (∀ q i, opE t V q i = vc st V q i) →
      (∀ q i, opE t (trE u .nonUnit (sub v2.1 v2.2 V)) q i = if i < q then 0 else vc st V (m - l + q) i) →
      (∀ q i, opE t (sub v3.1 v3.2 V) q i = vc st V q (l + i)) →
      (pammA2 .left t u m n k l v2 v3 A2 V W).1 i j =
        if i < m ∧ j < n then A2 i j - ∑ q ∈ range k, pent st m l V i q * W q j else A2 i j := by
    intro t u v2 v3 h h1 h2 h3
    rw [pammA2_left h hlm hlk v2 v3 A2 V W]
    split
    · next hij =>
      congr 1
      rw [show range k = range (l + (k - l)) by congr 1; omega, Finset.sum_range_add]
      congr 1
      · split
        · refine sum_congr rfl fun q hq => ?_
          have := mem_range.1 hq
          rw [h1]; unfold pent
          rw [if_neg (by omega)]
        · refine sum_congr rfl fun q hq => ?_
          have := mem_range.1 hq
          rw [h2]; unfold pent
          by_cases hiq : q < i - (m - l)
          · rw [if_pos hiq, if_pos (by omega)]
          · rw [if_neg hiq, if_neg (by omega), show m - l + (i - (m - l)) = i by omega]
      · refine sum_congr rfl fun q _ => ?_
        rw [h3]; unfold pent
        rw [if_neg (by omega)]
    · rfl
  unfold zpamm
  rw [if_neg (by omega)]
  cases st
  · simp only [if_true, reduceCtorEq, if_false]
    apply key
    · decide
    · intro q i; rfl
    · intro q i
      simp only [opE, trE, sub, vc, inTri, if_true, reduceCtorEq, if_false, Nat.zero_add]
      split_ifs <;> first | omega | simp | rfl
    · intro q i; simp [opE, sub, vc]
  · simp only [if_true, reduceCtorEq, if_false]
    apply key
    · decide
    · intro q i; simp [opE, vc, cT]
    · intro q i
      simp only [opE, trE, sub, vc, inTri, reduceCtorEq, if_false, Nat.zero_add, cT]
      split_ifs <;> first | omega | simp | rfl
    · intro q i; simp [opE, sub, vc, cT]

/-- `A2 = A2 - W V^H` with the pentagonal `V`. -/
theorem zpamm_a2r (st : Storev) {m n k l : Nat} (hm : 0 < m) (hn : 0 < n) (hk : 0 < k) (hln : l ≤ n) (hlk : l ≤ k)
    (A1 A2 V W : Tl α) (i j : Nat) :
    (zpamm .a2 .right st m n k l A1 A2 V W).1 i j =
      if i < m ∧ j < n then A2 i j - ∑ q ∈ range k, W i q * star (pent st n l V j q) else A2 i j := by
  have key : ∀ (t : Trans) (u : Uplo) (v2 v3 : Nat × Nat),
      ((t = .conjTrans ∧ u = .upper) ∨ (t = .noTrans ∧ u = .lower)) →
      (∀ q i, opE t V q i = star (vc st V i q)) →
      (∀ q i, opE t (trE u .nonUnit (sub v2.1 v2.2 V)) q i = if q < i then 0 else star (vc st V (n - l + i) q)) →
      (∀ q i, opE t (sub v3.1 v3.2 V) q i = star (vc st V i (l + q))) →
      (pammA2 .right t u m n k l v2 v3 A2 V W).1 i j =
        if i < m ∧ j < n then A2 i j - ∑ q ∈ range k, W i q * star (pent st n l V j q) else A2 i j := by
    intro t u v2 v3 h h1 h2 h3
    rw [pammA2_right h hln hlk v2 v3 A2 V W]
    split
    · next hij =>
      congr 1
      rw [show range k = range (l + (k - l)) by congr 1; omega, Finset.sum_range_add]
      congr 1
      · split
        · refine sum_congr rfl fun q hq => ?_
          have := mem_range.1 hq
          rw [h1]; unfold pent
          rw [if_neg (by omega)]
        · refine sum_congr rfl fun q hq => ?_
          have := mem_range.1 hq
          rw [h2]; unfold pent
          by_cases hiq : q < j - (n - l)
          · rw [if_pos hiq, if_pos (by omega), star_zero]
          · rw [if_neg hiq, if_neg (by omega), show n - l + (j - (n - l)) = j by omega]
      · refine sum_congr rfl fun q _ => ?_
        rw [h3]; unfold pent
        rw [if_neg (by omega)]
    · rfl
  unfold zpamm
  rw [if_neg (by omega)]
  cases st
  · simp only [if_true, reduceCtorEq, if_false]
    apply key
    · exact Or.inl ⟨rfl, rfl⟩
    · intro q i; rfl
    · intro q i
      simp only [opE, trE, sub, vc, inTri, if_true, reduceCtorEq, if_false, Nat.zero_add]
      split_ifs <;> first | omega | simp | rfl
    · intro q i; simp [opE, sub, vc]
  · simp only [if_true, reduceCtorEq, if_false]
    apply key
    · exact Or.inr ⟨rfl, rfl⟩
    · intro q i; simp [opE, vc, cT]
    · intro q i
      simp only [opE, trE, sub, vc, inTri, reduceCtorEq, if_false, Nat.zero_add, cT]
      split_ifs <;> first | omega | simp | rfl
    · intro q i; simp [opE, sub, vc, cT]

/-! ### One block of reflectors -/

/-- `op(T) (A1 + V^H A2)`. -/
def wL (t : Trans) (st : Storev) (m2 k l : Nat) (A1 A2 V T : Tl α) (i j : Nat) : α :=
  ∑ p ∈ range k, opE t (trE .upper .nonUnit T) i p * (A1 p j + ∑ q ∈ range m2, star (pent st m2 l V q p) * A2 q j)

/-- `(A1 + A2 V) op(T)`. -/
def wR (t : Trans) (st : Storev) (n2 k l : Nat) (A1 A2 V T : Tl α) (i j : Nat) : α :=
  ∑ p ∈ range k, (A1 i p + ∑ q ∈ range n2, A2 i q * pent st n2 l V q p) * opE t (trE .upper .nonUnit T) p j

theorem zparfb_left (t : Trans) (st : Storev) {m1 n m2 k l ldw : Nat} (hm1 : 0 < m1) (hn : 0 < n) (hm2 : 0 < m2)
    (hk : 0 < k) (hlk : l ≤ k) (hlm : l ≤ m2) (hld : k ≤ ldw) (A1 A2 V T W : Tl α) :
    ∃ r, zparfb .left t st m1 n m2 n k l ldw A1 A2 V T W = some r ∧
      (∀ i j, r.1 i j = if i < k ∧ j < n then A1 i j - wL t st m2 k l A1 A2 V T i j else A1 i j) ∧
      (∀ i j, r.2.1 i j = if i < m2 ∧ j < n then
        A2 i j - ∑ q ∈ range k, pent st m2 l V i q * wL t st m2 k l A1 A2 V T q j else A2 i j) := by
  unfold zparfb
  rw [if_neg (by omega), if_pos rfl, if_neg (by omega)]
  refine ⟨_, rfl, ?_, ?_⟩
  · intro i j
    dsimp only
    unfold axpyF
    split
    · next h =>
      rw [neg_one_mul, ← sub_eq_add_neg]
      congr 1
      unfold trmmF trmmK wL
      rw [if_pos h, if_pos rfl, one_mul]
      exact sum_congr rfl fun p hp => by rw [zpamm_wl st hk hn hm2 hlk hlm _ _ _ _ (mem_range.1 hp) h.2]
    · rfl
  · intro i j
    dsimp only
    rw [zpamm_a2l st hm2 hn hk hlm hlk]
    split
    · next h =>
      congr 1
      refine sum_congr rfl fun q hq => ?_
      congr 1
      unfold trmmF trmmK wL
      rw [if_pos ⟨mem_range.1 hq, h.2⟩, if_pos rfl, one_mul]
      exact sum_congr rfl fun p hp => by rw [zpamm_wl st hk hn hm2 hlk hlm _ _ _ _ (mem_range.1 hp) h.2]
    · rfl

theorem zparfb_right (t : Trans) (st : Storev) {m n1 n2 k l ldw : Nat} (hm : 0 < m) (hn1 : 0 < n1) (hn2 : 0 < n2)
    (hk : 0 < k) (hlk : l ≤ k) (hln : l ≤ n2) (hld : m ≤ ldw) (A1 A2 V T W : Tl α) :
    ∃ r, zparfb .right t st m n1 m n2 k l ldw A1 A2 V T W = some r ∧
      (∀ i j, r.1 i j = if i < m ∧ j < k then A1 i j - wR t st n2 k l A1 A2 V T i j else A1 i j) ∧
      (∀ i j, r.2.1 i j = if i < m ∧ j < n2 then
        A2 i j - ∑ q ∈ range k, wR t st n2 k l A1 A2 V T i q * star (pent st n2 l V j q) else A2 i j) := by
  unfold zparfb
  rw [if_neg (by omega), if_neg (by decide), if_neg (by omega)]
  refine ⟨_, rfl, ?_, ?_⟩
  · intro i j
    dsimp only
    unfold axpyF
    split
    · next h =>
      rw [neg_one_mul, ← sub_eq_add_neg]
      congr 1
      unfold trmmF trmmK wR
      rw [if_pos h, if_neg (by decide), one_mul]
      exact sum_congr rfl fun p hp => by rw [zpamm_wr st hm hk hn2 hln _ _ _ _ h.1 (mem_range.1 hp)]
    · rfl
  · intro i j
    dsimp only
    rw [zpamm_a2r st hm hn2 hk hln hlk]
    split
    · next h =>
      congr 1
      refine sum_congr rfl fun q hq => ?_
      congr 1
      unfold trmmF trmmK wR
      rw [if_pos ⟨h.1, mem_range.1 hq⟩, if_neg (by decide), one_mul]
      exact sum_congr rfl fun p hp => by rw [zpamm_wr st hm hk hn2 hln _ _ _ _ h.1 (mem_range.1 hp)]
    · rfl

/-! ### Products of block reflectors -/

/-- `PlasmaNoTrans` or `Plasma_ConjTrans`. -/
def tr (t : Bool) : Trans := if t then .conjTrans else .noTrans

omit [StarRing α] in
theorem lmul_mulVec {d : Nat} (Q : Matrix (Fin d) (Fin d) α) (X : Nat → Nat → α) {i j : Nat} (hi : i < d) :
    lmul Q X i j = (Q *ᵥ fun l : Fin d => X l j) ⟨i, hi⟩ := by
  unfold lmul
  rw [dif_pos hi]
  rfl

omit [StarRing α] in
theorem rmul_vecMul {d : Nat} (Q : Matrix (Fin d) (Fin d) α) (X : Nat → Nat → α) {i j : Nat} (hj : j < d) :
    rmul X Q i j = ((fun l : Fin d => X i l) ᵥ* Q) ⟨j, hj⟩ := by
  unfold rmul
  rw [dif_pos hj]
  rfl

omit [StarRing α] in
theorem lmul_mul {d : Nat} (P Q : Matrix (Fin d) (Fin d) α) (X : Nat → Nat → α) {i j : Nat} (hi : i < d) :
    lmul (P * Q) X i j = lmul P (lmul Q X) i j := by
  rw [lmul_mulVec _ _ hi, lmul_mulVec _ _ hi, ← Matrix.mulVec_mulVec]
  congr 2
  funext l
  exact (lmul_mulVec Q X l.2).symm

omit [StarRing α] in
theorem rmul_mul {d : Nat} (P Q : Matrix (Fin d) (Fin d) α) (X : Nat → Nat → α) {i j : Nat} (hj : j < d) :
    rmul X (P * Q) i j = rmul (rmul X P) Q i j := by
  rw [rmul_vecMul _ _ hj, rmul_vecMul _ _ hj, ← Matrix.vecMul_vecMul]
  congr 2
  funext l
  exact (rmul_vecMul P X l.2).symm

/-- The block of `T`. -/
def blkT (d c : Nat) (T : Tl α) : Matrix (Fin d) (Fin d) α :=
  Matrix.of fun l l' => trE .upper .nonUnit (sub 0 c T) l l'

theorem qop_wyBlk {d k ib : Nat} (v T : Tl α) (b : Nat) (t : Bool) :
    qop t (wyBlk d k ib v T b) =
      1 - (Matrix.of fun (r : Fin d) (l : Fin (tdim k ib b)) => v r (b * ib + l)) * qop t (blkT (tdim k ib b) (b * ib) T)
        * (Matrix.of fun (r : Fin d) (l : Fin (tdim k ib b)) => v r (b * ib + l))ᴴ := by
  have e : (Matrix.of fun (l l' : Fin (tdim k ib b)) => if l ≤ l' then T l (b * ib + l') else 0) =
      blkT (tdim k ib b) (b * ib) T := by
    ext l l'
    simp only [of_apply, blkT, trE, sub, inTri, Nat.zero_add, reduceCtorEq, if_false, Fin.le_def]
    split_ifs <;> first | omega | rfl
  unfold wyBlk
  rw [e]
  cases t
  · rfl
  · simp only [qop, if_true, conjTranspose_sub, conjTranspose_one, conjTranspose_mul, conjTranspose_conjTranspose,
      Matrix.mul_assoc]

theorem qop_blkT (t : Bool) (d c : Nat) (T : Tl α) (p q : Fin d) :
    qop t (blkT d c T) p q = opE (tr t) (trE .upper .nonUnit (sub 0 c T)) p q := by
  cases t <;> rfl

/-- Entries of a block reflector times a matrix. -/
theorem lmul_wyBlk {d k ib : Nat} (v T : Tl α) (b : Nat) (t : Bool) (X : Tl α) {i j : Nat} (hi : i < d) :
    lmul (qop t (wyBlk d k ib v T b)) X i j =
      X i j - ∑ q ∈ range (tdim k ib b), v i (b * ib + q) * ∑ p ∈ range (tdim k ib b),
        opE (tr t) (trE .upper .nonUnit (sub 0 (b * ib) T)) q p * ∑ r ∈ range d, star (v r (b * ib + p)) * X r j := by
  rw [lmul_mulVec _ _ hi, qop_wyBlk, Matrix.sub_mulVec, Matrix.one_mulVec, Pi.sub_apply, ← Matrix.mulVec_mulVec,
    ← Matrix.mulVec_mulVec]
  congr 1
  rw [Matrix.mulVec, dotProduct, Finset.sum_range]
  refine sum_congr rfl fun q _ => ?_
  congr 1
  rw [Matrix.mulVec, dotProduct, Finset.sum_range]
  refine sum_congr rfl fun p _ => ?_
  rw [qop_blkT, Matrix.mulVec, dotProduct, Finset.sum_range]
  rfl

/-- Entries of a matrix times a block reflector. -/
theorem rmul_wyBlk {d k ib : Nat} (v T : Tl α) (b : Nat) (t : Bool) (X : Tl α) {i j : Nat} (hj : j < d) :
    rmul X (qop t (wyBlk d k ib v T b)) i j =
      X i j - ∑ q ∈ range (tdim k ib b), (∑ p ∈ range (tdim k ib b),
        (∑ r ∈ range d, X i r * v r (b * ib + p)) * opE (tr t) (trE .upper .nonUnit (sub 0 (b * ib) T)) p q) *
          star (v j (b * ib + q)) := by
  rw [rmul_vecMul _ _ hj, qop_wyBlk, Matrix.vecMul_sub, Matrix.vecMul_one, Pi.sub_apply, ← Matrix.vecMul_vecMul,
    ← Matrix.vecMul_vecMul]
  congr 1
  rw [Matrix.vecMul, dotProduct, Finset.sum_range]
  refine sum_congr rfl fun q _ => ?_
  congr 1
  rw [Matrix.vecMul, dotProduct, Finset.sum_range]
  refine sum_congr rfl fun p _ => ?_
  rw [qop_blkT, Matrix.vecMul, dotProduct, Finset.sum_range]
  rfl

/-- The reflectors of the second tile. -/
def vt (tri : Bool) (V : Tl α) (q c : Nat) : α := if tri = true ∧ c < q then 0 else V q c

theorem stV_low (tri : Bool) (m1 : Nat) (V : Tl α) (q c : Nat) : stV tri m1 V (m1 + q) c = vt tri V q c := by
  unfold stV vt
  cases tri
  · simp only [Bool.false_eq_true, if_false, false_and, tsV]
    rw [if_neg (by omega), Nat.add_sub_cancel_left]
  · simp only [if_true, true_and, ttV]
    rw [if_neg (by omega), Nat.add_sub_cancel_left]
    split_ifs <;> first | omega | rfl

theorem stV_top (tri : Bool) {m1 : Nat} (V : Tl α) {r c : Nat} (hr : r < m1) :
    stV tri m1 V r c = if r = c then 1 else 0 := by
  unfold stV
  cases tri
  · simp only [Bool.false_eq_true, if_false, tsV]
    rw [if_pos hr]
  · simp only [if_true, ttV]
    rw [if_pos hr]

theorem sum_stV_left (tri : Bool) {m1 m2 c : Nat} (hc : c < m1) (V A1 A2 : Tl α) (j : Nat) :
    ∑ r ∈ range (m1 + m2), star (stV tri m1 V r c) * vstack m1 A1 A2 r j =
      A1 c j + ∑ q ∈ range m2, star (vt tri V q c) * A2 q j := by
  rw [Finset.sum_range_add]
  congr 1
  · rw [sum_eq_single c]
    · rw [stV_top tri V hc, if_pos rfl, star_one, one_mul]
      exact if_pos hc
    · intro r hr hrc
      rw [stV_top tri V (mem_range.1 hr), if_neg hrc, star_zero, zero_mul]
    · intro h; exact absurd (mem_range.2 hc) h
  · refine sum_congr rfl fun q _ => ?_
    rw [stV_low]
    congr 1
    unfold vstack
    rw [if_neg (by omega), Nat.add_sub_cancel_left]

theorem sum_stV_right (tri : Bool) {n1 n2 c : Nat} (hc : c < n1) (V A1 A2 : Tl α) (i : Nat) :
    ∑ r ∈ range (n1 + n2), hstack n1 A1 A2 i r * stV tri n1 V r c =
      A1 i c + ∑ q ∈ range n2, A2 i q * vt tri V q c := by
  rw [Finset.sum_range_add]
  congr 1
  · rw [sum_eq_single c]
    · rw [stV_top tri V hc, if_pos rfl, mul_one]
      exact if_pos hc
    · intro r hr hrc
      rw [stV_top tri V (mem_range.1 hr), if_neg hrc, mul_zero]
    · intro h; exact absurd (mem_range.2 hc) h
  · refine sum_congr rfl fun q _ => ?_
    rw [stV_low]
    congr 1
    unfold hstack
    rw [if_neg (by omega), Nat.add_sub_cancel_left]

/-- The columns of `V` from `i` on. -/
def blkV (st : Storev) (i : Nat) (V : Tl α) : Tl α := if st = .columnwise then sub 0 i V else sub i 0 V

theorem vc_blkV (st : Storev) (i : Nat) (V : Tl α) (q p : Nat) : vc st (blkV st i V) q p = vc st V q (i + p) := by
  cases st <;> simp [vc, blkV, sub, cT]

/-- Rows of the second tile that a block of reflectors touches. -/
def rows2 (tri : Bool) (i kb m2 : Nat) : Nat := if tri then min (i + kb) m2 else m2

/-- Order of the triangle in a block. -/
def ltri (tri : Bool) (i kb m2 : Nat) : Nat := if tri then min kb (max 0 (m2 - i)) else 0

theorem pent_vt (tri : Bool) (st : Storev) (i kb m2 : Nat) (V : Tl α) {q p : Nat} (hp : p < kb)
    (hq : q < rows2 tri i kb m2) :
    pent st (rows2 tri i kb m2) (ltri tri i kb m2) (blkV st i V) q p = vt tri (vc st V) q (i + p) := by
  unfold pent vt
  rw [vc_blkV]
  cases tri
  · simp [ltri]
  · unfold rows2 ltri at *
    simp only [if_true, true_and] at hq ⊢
    refine if_congr ?_ rfl rfl
    omega

theorem vt_out (tri : Bool) {i kb m2 q p : Nat} (V : Tl α) (hp : p < kb) (hq : ¬ q < rows2 tri i kb m2) (hm : q < m2) :
    vt tri V q (i + p) = 0 := by
  unfold rows2 at hq
  cases tri
  · simp only [Bool.false_eq_true, if_false] at hq
    omega
  · simp only [if_true] at hq
    exact if_pos ⟨rfl, by omega⟩

theorem rows2_le (tri : Bool) (i kb m2 : Nat) : rows2 tri i kb m2 ≤ m2 := by
  unfold rows2; split <;> omega

theorem sum_rows2 (tri : Bool) (st : Storev) (i kb m2 : Nat) (V : Tl α) {p : Nat} (hp : p < kb) (f : Nat → α → α)
    (hf : ∀ q, f q 0 = 0) :
    ∑ q ∈ range (rows2 tri i kb m2), f q (pent st (rows2 tri i kb m2) (ltri tri i kb m2) (blkV st i V) q p) =
      ∑ q ∈ range m2, f q (vt tri (vc st V) q (i + p)) := by
  have h := rows2_le tri i kb m2
  rw [show range m2 = range (rows2 tri i kb m2 + (m2 - rows2 tri i kb m2)) by congr 1; omega, Finset.sum_range_add]
  rw [Finset.sum_eq_zero (s := range (m2 - _)), add_zero]
  · exact sum_congr rfl fun q hq => by rw [pent_vt tri st i kb m2 V hp (mem_range.1 hq)]
  · intro q hq
    have := mem_range.1 hq
    rw [vt_out (m2 := m2) tri _ hp (by omega) (by omega), hf]

omit [CommRing α] [StarRing α] in
theorem sub_at (A : Tl α) {r c i j : Nat} (hr : r ≤ i) (hc : c ≤ j) : sub r c A (i - r) (j - c) = A i j := by
  unfold sub
  rw [show r + (i - r) = i by omega, show c + (j - c) = j by omega]

/-- Nothing outside the leading `m1` by `n1` and `m2` by `n2` parts of the two tiles has changed. -/
def Kept (m1 n1 m2 n2 : Nat) (s s' : St α) : Prop :=
  (∀ i j, ¬ (i < m1 ∧ j < n1) → s'.1 i j = s.1 i j) ∧ (∀ i j, ¬ (i < m2 ∧ j < n2) → s'.2.1 i j = s.2.1 i j)

omit [CommRing α] [StarRing α] in
theorem Kept.trans {m1 n1 m2 n2 : Nat} {s s' s'' : St α} (h : Kept m1 n1 m2 n2 s s') (h' : Kept m1 n1 m2 n2 s' s'') :
    Kept m1 n1 m2 n2 s s'' :=
  ⟨fun i j hij => (h'.1 i j hij).trans (h.1 i j hij), fun i j hij => (h'.2 i j hij).trans (h.2 i j hij)⟩

/-- One iteration of a kernel, from the left. -/
theorem step_left (t tri : Bool) (st : Storev) {m1 n m2 k ib ldw mi b : Nat} (hn : 0 < n) (hm2 : 0 < m2)
    (hib : 0 < ib) (hk : k ≤ m1) (hld : ib ≤ ldw) (hb : b * ib < k) (hmi : 0 < mi) (V T : Tl α) (s : St α) :
    ∃ r, zparfb .left (tr t) st mi n (rows2 tri (b * ib) (min ib (k - b * ib)) m2) n (min ib (k - b * ib))
        (ltri tri (b * ib) (min ib (k - b * ib)) m2) ldw (sub (b * ib) 0 s.1) s.2.1 (blkV st (b * ib) V)
        (sub 0 (b * ib) T) s.2.2 = some r ∧
      (∀ i j, i < m1 + m2 → j < n → vstack m1 (put (b * ib) 0 s.1 r.1) r.2.1 i j =
        lmul (qop t (wyBlk (m1 + m2) k ib (stV tri m1 (vc st V)) T b)) (vstack m1 s.1 s.2.1) i j) ∧
      Kept m1 n m2 n s (put (b * ib) 0 s.1 r.1, r.2) := by
  have htd : tdim k ib b = min ib (k - b * ib) := rfl
  set i0 := b * ib with hi0
  set kb := min ib (k - i0) with hkb
  have hkb0 : 0 < kb := by omega
  obtain ⟨r, hr, h1, h2⟩ := zparfb_left (tr t) st (ldw := ldw) hmi hn
    (m2 := rows2 tri i0 kb m2) (l := ltri tri i0 kb m2) (by unfold rows2; split <;> omega) hkb0
    (by unfold ltri; split <;> omega) (by unfold ltri rows2; split <;> omega) (by omega)
    (sub i0 0 s.1) s.2.1 (blkV st i0 V) (sub 0 i0 T) s.2.2
  refine ⟨r, hr, ?_, ?_⟩
  · -- the inner product
    have hw : ∀ q j, wL (tr t) st (rows2 tri i0 kb m2) kb (ltri tri i0 kb m2) (sub i0 0 s.1) s.2.1 (blkV st i0 V)
        (sub 0 i0 T) q j = ∑ p ∈ range kb, opE (tr t) (trE .upper .nonUnit (sub 0 i0 T)) q p *
          ∑ r ∈ range (m1 + m2), star (stV tri m1 (vc st V) r (i0 + p)) * vstack m1 s.1 s.2.1 r j := by
      intro q j
      unfold wL
      refine sum_congr rfl fun p hp => ?_
      have hp' := mem_range.1 hp
      rw [sum_stV_left tri (by omega)]
      congr 1
      refine congr_arg₂ _ (by unfold sub; rw [Nat.zero_add]) ?_
      exact sum_rows2 tri st i0 kb m2 V hp' (fun q x => star x * s.2.1 q j) (fun q => by rw [star_zero, zero_mul])
    intro i j hi hj
    rw [lmul_wyBlk _ _ _ _ _ hi, htd, ← hi0]
    by_cases him : i < m1
    · -- the first tile
      have e : ∀ q, q < kb → stV tri m1 (vc st V) i (i0 + q) = if i = i0 + q then 1 else 0 := fun q _ => stV_top tri _ him
      have e1 : ∀ X Y : Tl α, vstack m1 X Y i j = X i j := fun X Y => if_pos him
      rw [e1, e1]
      unfold put
      by_cases hii : i0 ≤ i ∧ i < i0 + kb
      · rw [if_pos ⟨hii.1, Nat.zero_le _⟩, h1, if_pos ⟨by omega, by omega⟩, hw, sub_at _ (by omega) (by omega), Nat.sub_zero]
        congr 1
        refine ((Finset.sum_eq_single (i - i0) ?_ ?_).trans ?_).symm
        · intro q hq hne
          rw [e q (mem_range.1 hq), if_neg (by omega), zero_mul]
        · intro h; exact absurd (mem_range.2 (by omega)) h
        · rw [e _ (by omega), if_pos (by omega), one_mul]
      · rw [Finset.sum_eq_zero, sub_zero]
        · split
          · rw [h1, if_neg (by omega), sub_at _ (by omega) (by omega)]
          · rfl
        · intro q hq
          have := mem_range.1 hq
          rw [e q this, if_neg (by omega), zero_mul]
    · -- the second tile
      obtain ⟨i', rfl⟩ : ∃ i', i = m1 + i' := ⟨i - m1, by omega⟩
      have e2 : ∀ X Y : Tl α, vstack m1 X Y (m1 + i') j = Y i' j := by
        intro X Y
        unfold vstack
        rw [if_neg him, Nat.add_sub_cancel_left]
      rw [e2, e2, h2]
      by_cases hr2 : i' < rows2 tri i0 kb m2
      · rw [if_pos ⟨hr2, hj⟩]
        congr 1
        refine sum_congr rfl fun q hq => ?_
        rw [pent_vt tri st i0 kb m2 V (mem_range.1 hq) hr2, stV_low, hw]
      · rw [if_neg (by omega), Finset.sum_eq_zero, sub_zero]
        intro q hq
        rw [stV_low, vt_out tri _ (mem_range.1 hq) hr2 (by omega), zero_mul]
  · constructor
    · intro i j hij
      show put i0 0 s.1 r.1 i j = _
      unfold put
      split
      · rw [h1, if_neg (by omega), sub_at _ (by omega) (by omega)]
      · rfl
    · intro i j hij
      have := rows2_le tri i0 kb m2
      show r.2.1 i j = _
      rw [h2, if_neg (by omega)]

/-- One iteration of a kernel, from the right. -/
theorem step_right (t tri : Bool) (st : Storev) {m n1 n2 k ib ldw ni b : Nat} (hm : 0 < m) (hn2 : 0 < n2)
    (hib : 0 < ib) (hk : k ≤ n1) (hld : m ≤ ldw) (hb : b * ib < k) (hni : 0 < ni) (V T : Tl α) (s : St α) :
    ∃ r, zparfb .right (tr t) st m ni m (rows2 tri (b * ib) (min ib (k - b * ib)) n2) (min ib (k - b * ib))
        (ltri tri (b * ib) (min ib (k - b * ib)) n2) ldw (sub 0 (b * ib) s.1) s.2.1 (blkV st (b * ib) V)
        (sub 0 (b * ib) T) s.2.2 = some r ∧
      (∀ i j, i < m → j < n1 + n2 → hstack n1 (put 0 (b * ib) s.1 r.1) r.2.1 i j =
        rmul (hstack n1 s.1 s.2.1) (qop t (wyBlk (n1 + n2) k ib (stV tri n1 (vc st V)) T b)) i j) ∧
      Kept m n1 m n2 s (put 0 (b * ib) s.1 r.1, r.2) := by
  have htd : tdim k ib b = min ib (k - b * ib) := rfl
  set i0 := b * ib with hi0
  set kb := min ib (k - i0) with hkb
  have hkb0 : 0 < kb := by omega
  obtain ⟨r, hr, h1, h2⟩ := zparfb_right (tr t) st (ldw := ldw) hm hni
    (n2 := rows2 tri i0 kb n2) (l := ltri tri i0 kb n2) (by unfold rows2; split <;> omega) hkb0
    (by unfold ltri; split <;> omega) (by unfold ltri rows2; split <;> omega) (by omega)
    (sub 0 i0 s.1) s.2.1 (blkV st i0 V) (sub 0 i0 T) s.2.2
  refine ⟨r, hr, ?_, ?_⟩
  · have hw : ∀ i q, wR (tr t) st (rows2 tri i0 kb n2) kb (ltri tri i0 kb n2) (sub 0 i0 s.1) s.2.1 (blkV st i0 V)
        (sub 0 i0 T) i q = ∑ p ∈ range kb, (∑ r ∈ range (n1 + n2), hstack n1 s.1 s.2.1 i r *
          stV tri n1 (vc st V) r (i0 + p)) * opE (tr t) (trE .upper .nonUnit (sub 0 i0 T)) p q := by
      intro i q
      unfold wR
      refine sum_congr rfl fun p hp => ?_
      have hp' := mem_range.1 hp
      rw [sum_stV_right tri (by omega)]
      congr 1
      refine congr_arg₂ _ (by unfold sub; rw [Nat.zero_add]) ?_
      exact sum_rows2 tri st i0 kb n2 V hp' (fun q x => s.2.1 i q * x) (fun q => mul_zero _)
    intro i j hi hj
    rw [rmul_wyBlk _ _ _ _ _ hj, htd, ← hi0]
    by_cases hjm : j < n1
    · have e : ∀ q, q < kb → stV tri n1 (vc st V) j (i0 + q) = if j = i0 + q then 1 else 0 := fun q _ => stV_top tri _ hjm
      have e1 : ∀ X Y : Tl α, hstack n1 X Y i j = X i j := fun X Y => if_pos hjm
      rw [e1, e1]
      unfold put
      by_cases hii : i0 ≤ j ∧ j < i0 + kb
      · rw [if_pos ⟨Nat.zero_le _, hii.1⟩, h1, if_pos ⟨by omega, by omega⟩, hw, sub_at _ (by omega) (by omega), Nat.sub_zero]
        congr 1
        refine ((Finset.sum_eq_single (j - i0) ?_ ?_).trans ?_).symm
        · intro q hq hne
          rw [e q (mem_range.1 hq), if_neg (by omega), star_zero, mul_zero]
        · intro h; exact absurd (mem_range.2 (by omega)) h
        · rw [e _ (by omega), if_pos (by omega), star_one, mul_one]
      · rw [Finset.sum_eq_zero, sub_zero]
        · split
          · rw [h1, if_neg (by omega), sub_at _ (by omega) (by omega)]
          · rfl
        · intro q hq
          have := mem_range.1 hq
          rw [e q this, if_neg (by omega), star_zero, mul_zero]
    · obtain ⟨j', rfl⟩ : ∃ j', j = n1 + j' := ⟨j - n1, by omega⟩
      have e2 : ∀ X Y : Tl α, hstack n1 X Y i (n1 + j') = Y i j' := by
        intro X Y
        unfold hstack
        rw [if_neg hjm, Nat.add_sub_cancel_left]
      rw [e2, e2, h2]
      by_cases hr2 : j' < rows2 tri i0 kb n2
      · rw [if_pos ⟨hi, hr2⟩]
        congr 1
        refine sum_congr rfl fun q hq => ?_
        rw [pent_vt tri st i0 kb n2 V (mem_range.1 hq) hr2, stV_low, hw]
      · rw [if_neg (by omega), Finset.sum_eq_zero, sub_zero]
        intro q hq
        rw [stV_low, vt_out tri _ (mem_range.1 hq) hr2 (by omega), star_zero, mul_zero]
  · constructor
    · intro i j hij
      show put 0 i0 s.1 r.1 i j = _
      unfold put
      split
      · rw [h1, if_neg (by omega), sub_at _ (by omega) (by omega)]
      · rfl
    · intro i j hij
      have := rows2_le tri i0 kb n2
      show r.2.1 i j = _
      rw [h2, if_neg (by omega)]

/-- All iterations, from the left. -/
theorem iter_left {m1 n m2 ib d : Nat} (hd : d = m1 + m2) (f : Nat → St α → Option (St α))
    (P : Nat → Matrix (Fin d) (Fin d) α) : ∀ (L : List Nat),
    (∀ b ∈ L, ∀ s, ∃ s', f (b * ib) s = some s' ∧ (∀ i j, i < m1 + m2 → j < n → vstack m1 s'.1 s'.2.1 i j =
      lmul (P b) (vstack m1 s.1 s.2.1) i j) ∧ Kept m1 n m2 n s s') → ∀ s,
    ∃ s', iter f (L.map (· * ib)) s = some s' ∧ (∀ i j, i < m1 + m2 → j < n → vstack m1 s'.1 s'.2.1 i j =
      lmul ((L.map P).reverse.prod) (vstack m1 s.1 s.2.1) i j) ∧ Kept m1 n m2 n s s' := by
  subst hd
  intro L
  induction L with
  | nil =>
    intro _ s
    refine ⟨s, rfl, fun i j hi _ => ?_, fun _ _ _ => rfl, fun _ _ _ => rfl⟩
    simp only [List.map_nil, List.reverse_nil, List.prod_nil]
    rw [lmul_mulVec _ _ hi, Matrix.one_mulVec]
  | cons b L ih =>
    intro h s
    obtain ⟨s1, e1, h1, k1⟩ := h b List.mem_cons_self s
    obtain ⟨s2, e2, h2, k2⟩ := ih (fun b' hb' => h b' (List.mem_cons_of_mem _ hb')) s1
    refine ⟨s2, ?_, ?_, k1.trans k2⟩
    · simp only [List.map_cons, iter, e1, Option.bind_some, e2]
    · intro i j hi hj
      rw [h2 i j hi hj, List.map_cons, List.reverse_cons, List.prod_append, List.prod_singleton, lmul_mul _ _ _ hi]
      exact lmul_congr hi fun l hl => h1 l j hl hj

/-- All iterations, from the right. -/
theorem iter_right {m n1 n2 ib d : Nat} (hd : d = n1 + n2) (f : Nat → St α → Option (St α))
    (P : Nat → Matrix (Fin d) (Fin d) α) : ∀ (L : List Nat),
    (∀ b ∈ L, ∀ s, ∃ s', f (b * ib) s = some s' ∧ (∀ i j, i < m → j < n1 + n2 → hstack n1 s'.1 s'.2.1 i j =
      rmul (hstack n1 s.1 s.2.1) (P b) i j) ∧ Kept m n1 m n2 s s') → ∀ s,
    ∃ s', iter f (L.map (· * ib)) s = some s' ∧ (∀ i j, i < m → j < n1 + n2 → hstack n1 s'.1 s'.2.1 i j =
      rmul (hstack n1 s.1 s.2.1) ((L.map P).prod) i j) ∧ Kept m n1 m n2 s s' := by
  subst hd
  intro L
  induction L with
  | nil =>
    intro _ s
    refine ⟨s, rfl, fun i j _ hj => ?_, fun _ _ _ => rfl, fun _ _ _ => rfl⟩
    simp only [List.map_nil, List.prod_nil]
    rw [rmul_vecMul _ _ hj, Matrix.vecMul_one]
  | cons b L ih =>
    intro h s
    obtain ⟨s1, e1, h1, k1⟩ := h b List.mem_cons_self s
    obtain ⟨s2, e2, h2, k2⟩ := ih (fun b' hb' => h b' (List.mem_cons_of_mem _ hb')) s1
    refine ⟨s2, ?_, ?_, k1.trans k2⟩
    · simp only [List.map_cons, iter, e1, Option.bind_some, e2]
    · intro i j hi hj
      rw [h2 i j hi hj, List.map_cons, List.prod_cons, rmul_mul _ _ _ hj]
      exact rmul_congr hj fun l hl => h1 i l hi hl

/-- Order of the blocks and of the factors. -/
theorem wy_left {d k ib : Nat} (v T : Tl α) (t : Bool) :
    ((if t then List.range (ceilDiv k ib) else (List.range (ceilDiv k ib)).reverse).map
      fun b => qop t (wyBlk d k ib v T b)).reverse.prod = qop t (wy d k ib v T) := by
  cases t
  · simp only [Bool.false_eq_true, if_false, List.map_reverse, List.reverse_reverse]
    rfl
  · simp only [if_true, qop]
    unfold wy
    rw [Matrix.conjTranspose_list_prod, List.map_map]
    rfl

theorem wy_right {d k ib : Nat} (v T : Tl α) (t : Bool) :
    ((if t then (List.range (ceilDiv k ib)).reverse else List.range (ceilDiv k ib)).map
      fun b => qop t (wyBlk d k ib v T b)).prod = qop t (wy d k ib v T) := by
  cases t
  · simp only [Bool.false_eq_true, if_false]
    rfl
  · simp only [if_true, qop]
    unfold wy
    rw [Matrix.conjTranspose_list_prod, List.map_map, List.map_reverse]
    rfl

/-! ### The kernels -/

theorem fwd_left (t : Bool) :
    decide ((Side.left = .left ∧ tr t ≠ .noTrans) ∨ (Side.left = .right ∧ tr t = .noTrans)) = t := by
  cases t <;> decide

theorem fwd_right (t : Bool) :
    decide ((Side.right = .left ∧ tr t ≠ .noTrans) ∨ (Side.right = .right ∧ tr t = .noTrans)) = !t := by
  cases t <;> decide

theorem fwd_left' (t : Bool) :
    decide ((Side.left = .left ∧ tr t = .noTrans) ∨ (Side.left = .right ∧ tr t ≠ .noTrans)) = !t := by
  cases t <;> decide

theorem fwd_right' (t : Bool) :
    decide ((Side.right = .left ∧ tr t = .noTrans) ∨ (Side.right = .right ∧ tr t ≠ .noTrans)) = t := by
  cases t <;> decide

theorem tr_flip (t : Bool) : (if tr t = .noTrans then Trans.conjTrans else .noTrans) = tr (!t) := by
  cases t <;> rfl

theorem mem_blocks {k ib b : Nat} (hib : 0 < ib) {t : Bool}
    (h : b ∈ if t then List.range (ceilDiv k ib) else (List.range (ceilDiv k ib)).reverse) : b * ib < k := by
  apply (lt_ceilDiv hib).1
  cases t
  · simpa using h
  · simpa using h

/-- All blocks from the left, with any body that performs the calls of `zparfb`. -/
theorem kern_left (t tri : Bool) (st : Storev) {m1 n m2 k ib ldw : Nat} (hn : 0 < n) (hm2 : 0 < m2)
    (hib : 0 < ib) (hk0 : 0 < k) (hk : k ≤ m1) (hld : ib ≤ ldw) (V T : Tl α) (mi : Nat → Nat)
    (hmi : ∀ i, i < k → 0 < mi i) (s : St α) :
    ∃ s', iter (fun i s => (zparfb .left (tr t) st (mi i) n (rows2 tri i (min ib (k - i)) m2) n (min ib (k - i))
          (ltri tri i (min ib (k - i)) m2) ldw (sub i 0 s.1) s.2.1 (blkV st i V) (sub 0 i T) s.2.2).map
          fun r => (put i 0 s.1 r.1, r.2)) (blocks t k ib) s = some s' ∧
      (∀ i j, i < m1 + m2 → j < n → vstack m1 s'.1 s'.2.1 i j =
        lmul (qop t (wy (m1 + m2) k ib (stV tri m1 (vc st V)) T)) (vstack m1 s.1 s.2.1) i j) ∧
      Kept m1 n m2 n s s' := by
  rw [blocks_eq hk0 hib, ← wy_left]
  apply iter_left rfl
  intro b hb s
  have hbk := mem_blocks hib hb
  obtain ⟨r, hr, h1, h2⟩ := step_left t tri st (m1 := m1) (mi := mi (b * ib)) hn hm2 hib hk hld hbk (hmi _ hbk) V T s
  exact ⟨_, by rw [hr]; rfl, h1, h2⟩

/-- All blocks from the right, with any body that performs the calls of `zparfb`. -/
theorem kern_right (t tri : Bool) (st : Storev) {m n1 n2 k ib ldw : Nat} (hm : 0 < m) (hn2 : 0 < n2)
    (hib : 0 < ib) (hk0 : 0 < k) (hk : k ≤ n1) (hld : m ≤ ldw) (V T : Tl α) (ni : Nat → Nat)
    (hni : ∀ i, i < k → 0 < ni i) (s : St α) :
    ∃ s', iter (fun i s => (zparfb .right (tr t) st m (ni i) m (rows2 tri i (min ib (k - i)) n2) (min ib (k - i))
          (ltri tri i (min ib (k - i)) n2) ldw (sub 0 i s.1) s.2.1 (blkV st i V) (sub 0 i T) s.2.2).map
          fun r => (put 0 i s.1 r.1, r.2)) (blocks (!t) k ib) s = some s' ∧
      (∀ i j, i < m → j < n1 + n2 → hstack n1 s'.1 s'.2.1 i j =
        rmul (hstack n1 s.1 s.2.1) (qop t (wy (n1 + n2) k ib (stV tri n1 (vc st V)) T)) i j) ∧
      Kept m n1 m n2 s s' := by
  rw [blocks_eq hk0 hib, ← wy_right]
  have e : (if (!t) = true then List.range (ceilDiv k ib) else (List.range (ceilDiv k ib)).reverse) =
      if t = true then (List.range (ceilDiv k ib)).reverse else List.range (ceilDiv k ib) := by cases t <;> rfl
  rw [← e]
  apply iter_right rfl
  intro b hb s
  have hbk := mem_blocks hib hb
  obtain ⟨r, hr, h1, h2⟩ := step_right t tri st (n1 := n1) (ni := ni (b * ib)) hm hn2 hib hk hld hbk (hni _ hbk) V T s
  exact ⟨_, by rw [hr]; rfl, h1, h2⟩

theorem ztsmqr_left (t : Bool) {m1 n m2 k ib ldw : Nat} (hn : 0 < n) (hm2 : 0 < m2) (hib : 0 < ib) (hk0 : 0 < k)
    (hk : k ≤ m1) (hld : ib ≤ ldw) (V T : Tl α) (s : St α) :
    ∃ s', ztsmqr .left (tr t) m1 n m2 n k ib ldw V T s = some s' ∧
      (∀ i j, i < m1 + m2 → j < n → vstack m1 s'.1 s'.2.1 i j =
        lmul (qop t (wy (m1 + m2) k ib (stV false m1 V) T)) (vstack m1 s.1 s.2.1) i j) ∧ Kept m1 n m2 n s s' := by
  obtain ⟨s', h, h1, h2⟩ := kern_left t false .columnwise (m1 := m1) hn hm2 hib hk0 hk hld V T (fun i => m1 - i)
    (fun i hi => by omega) s
  refine ⟨s', ?_, h1, h2⟩
  rw [← h]
  unfold ztsmqr
  rw [if_neg (by omega), fwd_left]
  rfl

theorem ztsmqr_right (t : Bool) {m n1 n2 k ib ldw : Nat} (hm : 0 < m) (hn2 : 0 < n2) (hib : 0 < ib) (hk0 : 0 < k)
    (hk : k ≤ n1) (hld : m ≤ ldw) (V T : Tl α) (s : St α) :
    ∃ s', ztsmqr .right (tr t) m n1 m n2 k ib ldw V T s = some s' ∧
      (∀ i j, i < m → j < n1 + n2 → hstack n1 s'.1 s'.2.1 i j =
        rmul (hstack n1 s.1 s.2.1) (qop t (wy (n1 + n2) k ib (stV false n1 V) T)) i j) ∧ Kept m n1 m n2 s s' := by
  obtain ⟨s', h, h1, h2⟩ := kern_right t false .columnwise (n1 := n1) hm hn2 hib hk0 hk hld V T (fun i => n1 - i)
    (fun i hi => by omega) s
  refine ⟨s', ?_, h1, h2⟩
  rw [← h]
  unfold ztsmqr
  rw [if_neg (by omega), fwd_right]
  rfl

theorem zttmqr_left (t : Bool) {m1 n m2 k ib ldw : Nat} (hn : 0 < n) (hm2 : 0 < m2) (hib : 0 < ib) (hk0 : 0 < k)
    (hk : k ≤ m1) (hld : ib ≤ ldw) (V T : Tl α) (s : St α) :
    ∃ s', zttmqr .left (tr t) m1 n m2 n k ib ldw V T s = some s' ∧
      (∀ i j, i < m1 + m2 → j < n → vstack m1 s'.1 s'.2.1 i j =
        lmul (qop t (wy (m1 + m2) k ib (stV true m1 V) T)) (vstack m1 s.1 s.2.1) i j) ∧ Kept m1 n m2 n s s' := by
  obtain ⟨s', h, h1, h2⟩ := kern_left t true .columnwise (m1 := m1) hn hm2 hib hk0 hk hld V T (fun i => min ib (k - i))
    (fun i hi => by omega) s
  refine ⟨s', ?_, h1, h2⟩
  rw [← h]
  unfold zttmqr
  rw [if_neg (by omega), fwd_left]
  rfl

theorem zttmqr_right (t : Bool) {m n1 n2 k ib ldw : Nat} (hm : 0 < m) (hn2 : 0 < n2) (hib : 0 < ib) (hk0 : 0 < k)
    (hk : k ≤ n1) (hld : m ≤ ldw) (V T : Tl α) (s : St α) :
    ∃ s', zttmqr .right (tr t) m n1 m n2 k ib ldw V T s = some s' ∧
      (∀ i j, i < m → j < n1 + n2 → hstack n1 s'.1 s'.2.1 i j =
        rmul (hstack n1 s.1 s.2.1) (qop t (wy (n1 + n2) k ib (stV true n1 V) T)) i j) ∧ Kept m n1 m n2 s s' := by
  obtain ⟨s', h, h1, h2⟩ := kern_right t true .columnwise (n1 := n1) hm hn2 hib hk0 hk hld V T
    (fun i => min ib (k - i)) (fun i hi => by omega) s
  refine ⟨s', ?_, h1, h2⟩
  rw [← h]
  unfold zttmqr
  rw [if_neg (by omega), fwd_right]
  rfl

theorem ztsmlq_left (t : Bool) {m1 n m2 k ib ldw : Nat} (hn : 0 < n) (hm2 : 0 < m2) (hib : 0 < ib) (hk0 : 0 < k)
    (hk : k ≤ m1) (hld : ib ≤ ldw) (V T : Tl α) (s : St α) :
    ∃ s', ztsmlq .left (tr t) m1 n m2 n k ib ldw V T s = some s' ∧
      (∀ i j, i < m1 + m2 → j < n → vstack m1 s'.1 s'.2.1 i j =
        lmul (qop (!t) (wy (m1 + m2) k ib (stV false m1 (cT V)) T)) (vstack m1 s.1 s.2.1) i j) ∧
      Kept m1 n m2 n s s' := by
  obtain ⟨s', h, h1, h2⟩ := kern_left (!t) false .rowwise (m1 := m1) hn hm2 hib hk0 hk hld V T (fun i => m1 - i)
    (fun i hi => by omega) s
  refine ⟨s', ?_, h1, h2⟩
  rw [← h]
  unfold ztsmlq
  rw [if_neg (by omega), fwd_left', tr_flip]
  rfl

theorem ztsmlq_right (t : Bool) {m n1 n2 k ib ldw : Nat} (hm : 0 < m) (hn2 : 0 < n2) (hib : 0 < ib) (hk0 : 0 < k)
    (hk : k ≤ n1) (hld : m ≤ ldw) (V T : Tl α) (s : St α) :
    ∃ s', ztsmlq .right (tr t) m n1 m n2 k ib ldw V T s = some s' ∧
      (∀ i j, i < m → j < n1 + n2 → hstack n1 s'.1 s'.2.1 i j =
        rmul (hstack n1 s.1 s.2.1) (qop (!t) (wy (n1 + n2) k ib (stV false n1 (cT V)) T)) i j) ∧
      Kept m n1 m n2 s s' := by
  obtain ⟨s', h, h1, h2⟩ := kern_right (!t) false .rowwise (n1 := n1) hm hn2 hib hk0 hk hld V T (fun i => n1 - i)
    (fun i hi => by omega) s
  refine ⟨s', ?_, h1, h2⟩
  rw [← h, Bool.not_not]
  unfold ztsmlq
  rw [if_neg (by omega), fwd_right', tr_flip]
  rfl

theorem zttmlq_left (t : Bool) {m1 n m2 k ib ldw : Nat} (hn : 0 < n) (hm2 : 0 < m2) (hib : 0 < ib) (hk0 : 0 < k)
    (hk : k ≤ m1) (hld : ib ≤ ldw) (V T : Tl α) (s : St α) :
    ∃ s', zttmlq .left (tr t) m1 n m2 n k ib ldw V T s = some s' ∧
      (∀ i j, i < m1 + m2 → j < n → vstack m1 s'.1 s'.2.1 i j =
        lmul (qop (!t) (wy (m1 + m2) k ib (stV true m1 (cT V)) T)) (vstack m1 s.1 s.2.1) i j) ∧
      Kept m1 n m2 n s s' := by
  obtain ⟨s', h, h1, h2⟩ := kern_left (!t) true .rowwise (m1 := m1) hn hm2 hib hk0 hk hld V T
    (fun i => min ib (k - i)) (fun i hi => by omega) s
  refine ⟨s', ?_, h1, h2⟩
  rw [← h]
  unfold zttmlq
  rw [if_neg (by omega), fwd_left', tr_flip]
  rfl

theorem zttmlq_right (t : Bool) {m n1 n2 k ib ldw : Nat} (hm : 0 < m) (hn2 : 0 < n2) (hib : 0 < ib) (hk0 : 0 < k)
    (hk : k ≤ n1) (hld : m ≤ ldw) (V T : Tl α) (s : St α) :
    ∃ s', zttmlq .right (tr t) m n1 m n2 k ib ldw V T s = some s' ∧
      (∀ i j, i < m → j < n1 + n2 → hstack n1 s'.1 s'.2.1 i j =
        rmul (hstack n1 s.1 s.2.1) (qop (!t) (wy (n1 + n2) k ib (stV true n1 (cT V)) T)) i j) ∧
      Kept m n1 m n2 s s' := by
  obtain ⟨s', h, h1, h2⟩ := kern_right (!t) true .rowwise (n1 := n1) hm hn2 hib hk0 hk hld V T
    (fun i => min ib (k - i)) (fun i hi => by omega) s
  refine ⟨s', ?_, h1, h2⟩
  rw [← h, Bool.not_not]
  unfold zttmlq
  rw [if_neg (by omega), fwd_right', tr_flip]
  rfl

/-! ### One tile -/

theorem geV_blk (V : Tl α) (i0 r q : Nat) (h : i0 ≤ r) : geV (sub i0 i0 V) (r - i0) q = geV V r (i0 + q) := by
  unfold geV sub
  rw [show i0 + (r - i0) = r by omega]
  split_ifs <;> first | rfl | omega

theorem geV_above (V : Tl α) {r c : Nat} (h : r < c) : geV V r c = 0 := by
  unfold geV
  rw [if_neg (by omega), if_neg (by omega)]

theorem vc_sub (st : Storev) (i : Nat) (V : Tl α) :
    (if st = .columnwise then sub i i V else cT (sub i i V)) = sub i i (vc st V) := by
  cases st <;> rfl

theorem sum_shift {d i0 : Nat} (h : i0 ≤ d) (f : Nat → α) (h0 : ∀ r, r < i0 → f r = 0) :
    ∑ r ∈ range d, f r = ∑ r ∈ range (d - i0), f (i0 + r) := by
  conv_lhs => rw [show d = i0 + (d - i0) by omega]
  rw [Finset.sum_range_add, Finset.sum_eq_zero fun r hr => h0 r (mem_range.1 hr), zero_add]

/-- One iteration on one tile, from the left. -/
theorem larfb_left (t : Bool) (st : Storev) {m n k ib b : Nat} (hk : k ≤ m) (hb : b * ib < k) (A T C : Tl α)
    (i j : Nat) :
    put (b * ib) 0 C (larfbF .left (tr t) st (m - b * ib) n (min ib (k - b * ib)) (sub (b * ib) (b * ib) A)
      (sub 0 (b * ib) T) (sub (b * ib) 0 C)) i j =
    if i < m ∧ j < n then lmul (qop t (wyBlk m k ib (geV (vc st A)) T b)) C i j else C i j := by
  have htd : tdim k ib b = min ib (k - b * ib) := rfl
  set i0 := b * ib with hi0
  unfold put
  by_cases hii : i0 ≤ i
  · rw [if_pos ⟨hii, Nat.zero_le _⟩]
    unfold larfbF
    dsimp only
    rw [vc_sub, sub_at _ hii (Nat.zero_le _)]
    by_cases hij : i < m ∧ j < n
    · rw [if_pos (by omega), if_pos rfl, if_pos hij, lmul_wyBlk _ _ _ _ _ hij.1, htd, ← hi0]
      congr 1
      refine sum_congr rfl fun q hq => ?_
      rw [geV_blk _ _ _ _ hii]
      congr 1
      refine sum_congr rfl fun p hp => ?_
      congr 1
      rw [sum_shift (show i0 ≤ m by omega)]
      · refine sum_congr rfl fun r _ => ?_
        have := geV_blk (vc st A) i0 (i0 + r) p (by omega)
        rw [Nat.add_sub_cancel_left] at this
        rw [this]
        unfold sub
        rw [Nat.zero_add, Nat.sub_zero]
      · intro r hr
        rw [geV_above _ (by omega), star_zero, zero_mul]
    · rw [if_neg (by omega), if_neg hij]
  · rw [if_neg (by omega)]
    split
    · next hij =>
      rw [lmul_wyBlk _ _ _ _ _ hij.1, ← hi0, Finset.sum_eq_zero, sub_zero]
      intro q _
      rw [geV_above _ (by omega), zero_mul]
    · rfl

/-- One iteration on one tile, from the right. -/
theorem larfb_right (t : Bool) (st : Storev) {m n k ib b : Nat} (hk : k ≤ n) (hb : b * ib < k) (A T C : Tl α)
    (i j : Nat) :
    put 0 (b * ib) C (larfbF .right (tr t) st m (n - b * ib) (min ib (k - b * ib)) (sub (b * ib) (b * ib) A)
      (sub 0 (b * ib) T) (sub 0 (b * ib) C)) i j =
    if i < m ∧ j < n then rmul C (qop t (wyBlk n k ib (geV (vc st A)) T b)) i j else C i j := by
  have htd : tdim k ib b = min ib (k - b * ib) := rfl
  set i0 := b * ib with hi0
  unfold put
  by_cases hii : i0 ≤ j
  · rw [if_pos ⟨Nat.zero_le _, hii⟩]
    unfold larfbF
    dsimp only
    rw [vc_sub, sub_at _ (Nat.zero_le _) hii]
    by_cases hij : i < m ∧ j < n
    · rw [if_pos (by omega), if_neg (by decide), if_pos hij, rmul_wyBlk _ _ _ _ _ hij.2, htd, ← hi0]
      congr 1
      refine sum_congr rfl fun q hq => ?_
      rw [geV_blk _ _ _ _ hii]
      congr 1
      refine sum_congr rfl fun p hp => ?_
      congr 1
      rw [sum_shift (show i0 ≤ n by omega)]
      · refine sum_congr rfl fun r _ => ?_
        have := geV_blk (vc st A) i0 (i0 + r) p (by omega)
        rw [Nat.add_sub_cancel_left] at this
        rw [this]
        unfold sub
        rw [Nat.zero_add, Nat.sub_zero]
      · intro r hr
        rw [geV_above _ (by omega), mul_zero]
    · rw [if_neg (by omega), if_neg hij]
  · rw [if_neg (by omega)]
    split
    · next hij =>
      rw [rmul_wyBlk _ _ _ _ _ hij.2, ← hi0, Finset.sum_eq_zero, sub_zero]
      intro q _
      rw [geV_above _ (by omega), star_zero, mul_zero]
    · rfl

omit [StarRing α] in
theorem fold_left {m n ib : Nat} (f : Tl α → Nat → Tl α) (P : Nat → Matrix (Fin m) (Fin m) α) : ∀ (L : List Nat),
    (∀ b ∈ L, ∀ C i j, f C (b * ib) i j = if i < m ∧ j < n then lmul (P b) C i j else C i j) → ∀ C i j,
    (L.map (· * ib)).foldl f C i j = if i < m ∧ j < n then lmul ((L.map P).reverse.prod) C i j else C i j := by
  intro L
  induction L with
  | nil =>
    intro _ C i j
    simp only [List.map_nil, List.foldl_nil, List.reverse_nil, List.prod_nil]
    split
    · next h => rw [lmul_mulVec _ _ h.1, Matrix.one_mulVec]
    · rfl
  | cons b L ih =>
    intro h C i j
    rw [List.map_cons, List.foldl_cons, ih fun b' hb' => h b' (List.mem_cons_of_mem _ hb')]
    split
    · next hij =>
      rw [List.map_cons, List.reverse_cons, List.prod_append, List.prod_singleton, lmul_mul _ _ _ hij.1]
      exact lmul_congr hij.1 fun l hl => by rw [h b List.mem_cons_self, if_pos ⟨hl, hij.2⟩]
    · next hij => rw [h b List.mem_cons_self, if_neg hij]

omit [StarRing α] in
theorem fold_right {m n ib : Nat} (f : Tl α → Nat → Tl α) (P : Nat → Matrix (Fin n) (Fin n) α) : ∀ (L : List Nat),
    (∀ b ∈ L, ∀ C i j, f C (b * ib) i j = if i < m ∧ j < n then rmul C (P b) i j else C i j) → ∀ C i j,
    (L.map (· * ib)).foldl f C i j = if i < m ∧ j < n then rmul C ((L.map P).prod) i j else C i j := by
  intro L
  induction L with
  | nil =>
    intro _ C i j
    simp only [List.map_nil, List.foldl_nil, List.prod_nil]
    split
    · next h => rw [rmul_vecMul _ _ h.2, Matrix.vecMul_one]
    · rfl
  | cons b L ih =>
    intro h C i j
    rw [List.map_cons, List.foldl_cons, ih fun b' hb' => h b' (List.mem_cons_of_mem _ hb')]
    split
    · next hij =>
      rw [List.map_cons, List.prod_cons, rmul_mul _ _ _ hij.2]
      exact rmul_congr hij.2 fun l hl => by rw [h b List.mem_cons_self, if_pos ⟨hij.1, hl⟩]
    · next hij => rw [h b List.mem_cons_self, if_neg hij]

theorem zunmqr_left (t : Bool) {m n k ib : Nat} (hib : 0 < ib) (hk : k ≤ m) (A T C : Tl α) (i j : Nat) :
    zunmqr .left (tr t) m n k ib A T C i j =
      if i < m ∧ j < n then lmul (qop t (wy m k ib (geV A) T)) C i j else C i j := by
  unfold zunmqr
  by_cases h0 : m = 0 ∨ n = 0 ∨ k = 0
  · rw [if_pos h0]
    split
    · next h =>
      have hk0 : k = 0 := by omega
      subst hk0
      have : wy m 0 ib (geV A) T = 1 := by simp [wy, ceilDiv, Nat.div_eq_of_lt (show ib - 1 < ib by omega)]
      rw [this, lmul_mulVec _ _ h.1]
      cases t <;> simp [qop]
    · rfl
  · rw [if_neg h0, fwd_left, blocks_eq (by omega) hib, ← wy_left]
    exact fold_left _ _ _ (fun b hb C i j => larfb_left t .columnwise hk (mem_blocks hib hb) A T C i j) C i j

theorem zunmqr_right (t : Bool) {m n k ib : Nat} (hib : 0 < ib) (hk : k ≤ n) (A T C : Tl α) (i j : Nat) :
    zunmqr .right (tr t) m n k ib A T C i j =
      if i < m ∧ j < n then rmul C (qop t (wy n k ib (geV A) T)) i j else C i j := by
  unfold zunmqr
  by_cases h0 : m = 0 ∨ n = 0 ∨ k = 0
  · rw [if_pos h0]
    split
    · next h =>
      have hk0 : k = 0 := by omega
      subst hk0
      have : wy n 0 ib (geV A) T = 1 := by simp [wy, ceilDiv, Nat.div_eq_of_lt (show ib - 1 < ib by omega)]
      rw [this, rmul_vecMul _ _ h.2]
      cases t <;> simp [qop]
    · rfl
  · rw [if_neg h0, fwd_right, blocks_eq (by omega) hib, ← wy_right]
    have e : (if (!t) = true then List.range (ceilDiv k ib) else (List.range (ceilDiv k ib)).reverse) =
        if t = true then (List.range (ceilDiv k ib)).reverse else List.range (ceilDiv k ib) := by cases t <;> rfl
    rw [← e]
    exact fold_right _ _ _ (fun b hb C i j => larfb_right t .columnwise hk (mem_blocks hib hb) A T C i j) C i j

theorem zunmlq_left (t : Bool) {m n k ib : Nat} (hib : 0 < ib) (hk : k ≤ m) (A T C : Tl α) (i j : Nat) :
    zunmlq .left (tr t) m n k ib A T C i j =
      if i < m ∧ j < n then lmul (qop (!t) (wy m k ib (geV (cT A)) T)) C i j else C i j := by
  unfold zunmlq
  by_cases h0 : m = 0 ∨ n = 0 ∨ k = 0
  · rw [if_pos h0]
    split
    · next h =>
      have hk0 : k = 0 := by omega
      subst hk0
      have : wy m 0 ib (geV (cT A)) T = 1 := by simp [wy, ceilDiv, Nat.div_eq_of_lt (show ib - 1 < ib by omega)]
      rw [this, lmul_mulVec _ _ h.1]
      cases t <;> simp [qop]
    · rfl
  · rw [if_neg h0, fwd_left', tr_flip, blocks_eq (by omega) hib, ← wy_left]
    exact fold_left _ _ _ (fun b hb C i j => larfb_left (!t) .rowwise hk (mem_blocks hib hb) A T C i j) C i j

theorem zunmlq_right (t : Bool) {m n k ib : Nat} (hib : 0 < ib) (hk : k ≤ n) (A T C : Tl α) (i j : Nat) :
    zunmlq .right (tr t) m n k ib A T C i j =
      if i < m ∧ j < n then rmul C (qop (!t) (wy n k ib (geV (cT A)) T)) i j else C i j := by
  unfold zunmlq
  by_cases h0 : m = 0 ∨ n = 0 ∨ k = 0
  · rw [if_pos h0]
    split
    · next h =>
      have hk0 : k = 0 := by omega
      subst hk0
      have : wy n 0 ib (geV (cT A)) T = 1 := by simp [wy, ceilDiv, Nat.div_eq_of_lt (show ib - 1 < ib by omega)]
      rw [this, rmul_vecMul _ _ h.2]
      cases t <;> simp [qop]
    · rfl
  · rw [if_neg h0, fwd_right', tr_flip, blocks_eq (by omega) hib, ← wy_right]
    have e : (if t = true then List.range (ceilDiv k ib) else (List.range (ceilDiv k ib)).reverse) =
        if (!t) = true then (List.range (ceilDiv k ib)).reverse else List.range (ceilDiv k ib) := by cases t <;> rfl
    rw [← e]
    exact fold_right _ _ _ (fun b hb C i j => larfb_right (!t) .rowwise hk (mem_blocks hib hb) A T C i j) C i j

end Verif.Pent

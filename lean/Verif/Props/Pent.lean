/-
C60: the kernels that apply reflectors, as coded, apply `op(Q)`.
-/
import Verif.Pent
import Mathlib.Algebra.Star.Rat
import Mathlib.Tactic.NormNum

namespace Verif.Props

open Verif.Layout Verif.Tile Verif.Qr Verif.Pent Finset Matrix

universe u v

section
variable {M : Type u} {α : Type v} [CommRing α] [StarRing α]

/-- C60, QR kernels from the left: `plasma_core_ztsmqr` (`tri = false`) and `plasma_core_zttmqr` (`tri = true`), with
the workspace of any contents that their tasks supply, replace the tile `A1` on top of the tile `A2` by `op(Q)` times
it and touch nothing else.  `Q` is the product of the block reflectors in `V` and `T`. -/
theorem C60_qr_left (tri t : Bool) {m1 n m2 k ib : Nat} (hn : 0 < n) (hm2 : 0 < m2) (hib : 0 < ib) (hk0 : 0 < k)
    (hk : k ≤ m1) (V T A1 A2 W : Tl α) :
    ∃ B1 B2 W', (if tri then zttmqr else ztsmqr) .left (tr t) m1 n m2 n k ib (ldQr .left m1 ib) V T (A1, A2, W) =
        some (B1, B2, W') ∧
      (∀ i j, i < m1 + m2 → j < n → vstack m1 B1 B2 i j =
        lmul (qop t (wy (m1 + m2) k ib (if tri then ttV m1 V else tsV m1 V) T)) (vstack m1 A1 A2) i j) ∧
      (∀ i j, ¬ (i < m1 ∧ j < n) → B1 i j = A1 i j) ∧ (∀ i j, ¬ (i < m2 ∧ j < n) → B2 i j = A2 i j) := by
  cases tri
  · obtain ⟨s', h, h1, h2, h3⟩ := ztsmqr_left t (m1 := m1) (ldw := ldQr .left m1 ib) hn hm2 hib hk0 hk
      (le_of_eq (by simp [ldQr])) V T (A1, A2, W)
    exact ⟨s'.1, s'.2.1, s'.2.2, h, h1, h2, h3⟩
  · obtain ⟨s', h, h1, h2, h3⟩ := zttmqr_left t (m1 := m1) (ldw := ldQr .left m1 ib) hn hm2 hib hk0 hk
      (le_of_eq (by simp [ldQr])) V T (A1, A2, W)
    exact ⟨s'.1, s'.2.1, s'.2.2, h, h1, h2, h3⟩

/-- C60, QR kernels from the right. -/
theorem C60_qr_right (tri t : Bool) {m n1 n2 k ib : Nat} (hm : 0 < m) (hn2 : 0 < n2) (hib : 0 < ib) (hk0 : 0 < k)
    (hk : k ≤ n1) (V T A1 A2 W : Tl α) :
    ∃ B1 B2 W', (if tri then zttmqr else ztsmqr) .right (tr t) m n1 m n2 k ib (ldQr .right m ib) V T (A1, A2, W) =
        some (B1, B2, W') ∧
      (∀ i j, i < m → j < n1 + n2 → hstack n1 B1 B2 i j =
        rmul (hstack n1 A1 A2) (qop t (wy (n1 + n2) k ib (if tri then ttV n1 V else tsV n1 V) T)) i j) ∧
      (∀ i j, ¬ (i < m ∧ j < n1) → B1 i j = A1 i j) ∧ (∀ i j, ¬ (i < m ∧ j < n2) → B2 i j = A2 i j) := by
  cases tri
  · obtain ⟨s', h, h1, h2, h3⟩ := ztsmqr_right t (n1 := n1) (ldw := ldQr .right m ib) hm hn2 hib hk0 hk
      (le_of_eq (by simp [ldQr])) V T (A1, A2, W)
    exact ⟨s'.1, s'.2.1, s'.2.2, h, h1, h2, h3⟩
  · obtain ⟨s', h, h1, h2, h3⟩ := zttmqr_right t (n1 := n1) (ldw := ldQr .right m ib) hm hn2 hib hk0 hk
      (le_of_eq (by simp [ldQr])) V T (A1, A2, W)
    exact ⟨s'.1, s'.2.1, s'.2.2, h, h1, h2, h3⟩

/-- C60, LQ kernels from the left: `plasma_core_ztsmlq`, `plasma_core_zttmlq`.  The reflectors are stored in rows; `Q`
is the adjoint of the product of the block reflectors. -/
theorem C60_lq_left (tri t : Bool) {m1 n m2 k ib : Nat} (hn : 0 < n) (hm2 : 0 < m2) (hib : 0 < ib) (hk0 : 0 < k)
    (hk : k ≤ m1) (V T A1 A2 W : Tl α) :
    ∃ B1 B2 W', (if tri then zttmlq else ztsmlq) .left (tr t) m1 n m2 n k ib (ldLq .left n ib) V T (A1, A2, W) =
        some (B1, B2, W') ∧
      (∀ i j, i < m1 + m2 → j < n → vstack m1 B1 B2 i j =
        lmul (qop t (wy (m1 + m2) k ib (if tri then ttV m1 (cT V) else tsV m1 (cT V)) T)ᴴ) (vstack m1 A1 A2) i j) ∧
      (∀ i j, ¬ (i < m1 ∧ j < n) → B1 i j = A1 i j) ∧ (∀ i j, ¬ (i < m2 ∧ j < n) → B2 i j = A2 i j) := by
  have e : ∀ Q : Matrix (Fin (m1 + m2)) (Fin (m1 + m2)) α, qop t Qᴴ = qop (!t) Q := by
    intro Q; cases t <;> simp [qop]
  cases tri
  · obtain ⟨s', h, h1, h2, h3⟩ := ztsmlq_left t (m1 := m1) (ldw := ldLq .left n ib) hn hm2 hib hk0 hk
      (le_of_eq (by simp [ldLq])) V T (A1, A2, W)
    exact ⟨s'.1, s'.2.1, s'.2.2, h, fun i j hi hj => by rw [e]; exact h1 i j hi hj, h2, h3⟩
  · obtain ⟨s', h, h1, h2, h3⟩ := zttmlq_left t (m1 := m1) (ldw := ldLq .left n ib) hn hm2 hib hk0 hk
      (le_of_eq (by simp [ldLq])) V T (A1, A2, W)
    exact ⟨s'.1, s'.2.1, s'.2.2, h, fun i j hi hj => by rw [e]; exact h1 i j hi hj, h2, h3⟩

/-- C60, LQ kernels from the right.  Missing for the full claim: `A1` with more rows than columns, where the claim is
false, see `C60_lq_right_refuted`. -/
theorem C60_lq_right_partial (tri t : Bool) {m n1 n2 k ib : Nat} (hm : 0 < m) (hmn : m ≤ n1) (hn2 : 0 < n2)
    (hib : 0 < ib) (hk0 : 0 < k) (hk : k ≤ n1) (V T A1 A2 W : Tl α) :
    ∃ B1 B2 W', (if tri then zttmlq else ztsmlq) .right (tr t) m n1 m n2 k ib (ldLq .right n1 ib) V T (A1, A2, W) =
        some (B1, B2, W') ∧
      (∀ i j, i < m → j < n1 + n2 → hstack n1 B1 B2 i j =
        rmul (hstack n1 A1 A2)
          (qop t (wy (n1 + n2) k ib (if tri then ttV n1 (cT V) else tsV n1 (cT V)) T)ᴴ) i j) ∧
      (∀ i j, ¬ (i < m ∧ j < n1) → B1 i j = A1 i j) ∧ (∀ i j, ¬ (i < m ∧ j < n2) → B2 i j = A2 i j) := by
  have e : ∀ Q : Matrix (Fin (n1 + n2)) (Fin (n1 + n2)) α, qop t Qᴴ = qop (!t) Q := by
    intro Q; cases t <;> simp [qop]
  have hld : m ≤ ldLq .right n1 ib := by simpa [ldLq] using hmn
  cases tri
  · obtain ⟨s', h, h1, h2, h3⟩ := ztsmlq_right t (n1 := n1) hm hn2 hib hk0 hk hld V T (A1, A2, W)
    exact ⟨s'.1, s'.2.1, s'.2.2, h, fun i j hi hj => by rw [e]; exact h1 i j hi hj, h2, h3⟩
  · obtain ⟨s', h, h1, h2, h3⟩ := zttmlq_right t (n1 := n1) hm hn2 hib hk0 hk hld V T (A1, A2, W)
    exact ⟨s'.1, s'.2.1, s'.2.2, h, fun i j hi hj => by rw [e]; exact h1 i j hi hj, h2, h3⟩

/-- C60 fails for the LQ kernels from the right: with 2 by 1 tiles the workspace of the task has leading dimension 1,
though two rows are stored in it, and BLAS rejects the first call. -/
theorem C60_lq_right_refuted (tri t : Bool) (V T A1 A2 W : Tl α) :
    (if tri then zttmlq else ztsmlq) .right (tr t) 2 1 2 1 1 1 (ldLq .right 1 1) V T (A1, A2, W) = none := by
  cases tri <;> cases t <;> simp [zttmlq, ztsmlq, tr, ldLq, blocks, iters, iter, zparfb]

/-- C60, kernels on one tile: `plasma_core_zunmqr` and `plasma_core_zunmlq` apply `op(Q)` from either side. -/
theorem C60_one_tile (t : Bool) {m n k ib : Nat} (hib : 0 < ib) (A T C : Tl α) :
    (k ≤ m → ∀ i j, zunmqr .left (tr t) m n k ib A T C i j =
      if i < m ∧ j < n then lmul (qop t (wy m k ib (geV A) T)) C i j else C i j) ∧
    (k ≤ n → ∀ i j, zunmqr .right (tr t) m n k ib A T C i j =
      if i < m ∧ j < n then rmul C (qop t (wy n k ib (geV A) T)) i j else C i j) ∧
    (k ≤ m → ∀ i j, zunmlq .left (tr t) m n k ib A T C i j =
      if i < m ∧ j < n then lmul (qop t (wy m k ib (geV (cT A)) T)ᴴ) C i j else C i j) ∧
    (k ≤ n → ∀ i j, zunmlq .right (tr t) m n k ib A T C i j =
      if i < m ∧ j < n then rmul C (qop t (wy n k ib (geV (cT A)) T)ᴴ) i j else C i j) := by
  have e : ∀ {d} (Q : Matrix (Fin d) (Fin d) α), qop t Qᴴ = qop (!t) Q := by
    intro d Q; cases t <;> simp [qop]
  refine ⟨fun h => zunmqr_left t hib h A T C, fun h => zunmqr_right t hib h A T C, fun h i j => ?_, fun h i j => ?_⟩
  · rw [e]; exact zunmlq_left t hib h A T C i j
  · rw [e]; exact zunmlq_right t hib h A T C i j

/-! ### The tasks of the tile algorithms do what the kernels do -/

theorem run_pair {rds : List (M × (Nat → Nat → Prop))} {A1 A2 : M} (hA : A1 ≠ A2) {r1 r2 : Nat → Nat → Prop}
    {f1 f2 : Store M α → Tl α} (s : Store M α) {B1 B2 : Tl α} (h1 : ∀ i j, r1 i j → B1 i j = f1 s i j)
    (k1 : ∀ i j, ¬ r1 i j → B1 i j = s A1 i j) (h2 : ∀ i j, r2 i j → B2 i j = f2 s i j)
    (k2 : ∀ i j, ¬ r2 i j → B2 i j = s A2 i j) :
    (wop rds [⟨A1, r1, f1⟩, ⟨A2, r2, f2⟩]).run s A1 = B1 ∧ (wop rds [⟨A1, r1, f1⟩, ⟨A2, r2, f2⟩]).run s A2 = B2 ∧
    ∀ x, x ≠ A1 → x ≠ A2 → (wop rds [⟨A1, r1, f1⟩, ⟨A2, r2, f2⟩]).run s x = s x := by
  have hn : ([⟨A1, r1, f1⟩, ⟨A2, r2, f2⟩] : List (Wr M α)).map Wr.t |>.Nodup := by simp [hA]
  refine ⟨?_, ?_, ?_⟩
  · have := wop_at (rds := rds) hn (w := ⟨A1, r1, f1⟩) (by simp) s
    refine this.trans ?_
    funext i j
    by_cases h : r1 i j
    · rw [paste_in h, h1 i j h]
    · rw [paste_out h, k1 i j h]
  · have := wop_at (rds := rds) hn (w := ⟨A2, r2, f2⟩) (by simp) s
    refine this.trans ?_
    funext i j
    by_cases h : r2 i j
    · rw [paste_in h, h2 i j h]
    · rw [paste_out h, k2 i j h]
  · intro x hx1 hx2
    apply wop_ne
    intro w hw
    simp only [List.mem_cons, List.not_mem_nil, or_false] at hw
    rcases hw with rfl | rfl
    · exact hx1
    · exact hx2

/-- C60: the tasks `stmqrL`, `stmqrR` in the tile algorithms leave the tiles as the kernels do. -/
theorem C60_qr_tasks (tri t : Bool) {k ib : Nat} (hib : 0 < ib) (hk0 : 0 < k) {A1 A2 : M} (hA : A1 ≠ A2) (V T : M)
    (s : Store M α) (W : Tl α) :
    (∀ m1 n m2, 0 < n → 0 < m2 → k ≤ m1 → ∃ W',
      (if tri then zttmqr else ztsmqr) .left (tr t) m1 n m2 n k ib (ldQr .left m1 ib) (s V) (s T) (s A1, s A2, W) =
        some ((stmqrL tri t m1 n m2 k ib A1 A2 V T).run s A1, (stmqrL tri t m1 n m2 k ib A1 A2 V T).run s A2, W') ∧
      ∀ x, x ≠ A1 → x ≠ A2 → (stmqrL tri t m1 n m2 k ib A1 A2 V T).run s x = s x) ∧
    (∀ m n1 n2, 0 < m → 0 < n2 → k ≤ n1 → ∃ W',
      (if tri then zttmqr else ztsmqr) .right (tr t) m n1 m n2 k ib (ldQr .right m ib) (s V) (s T) (s A1, s A2, W) =
        some ((stmqrR tri t m n1 n2 k ib A1 A2 V T).run s A1, (stmqrR tri t m n1 n2 k ib A1 A2 V T).run s A2, W') ∧
      ∀ x, x ≠ A1 → x ≠ A2 → (stmqrR tri t m n1 n2 k ib A1 A2 V T).run s x = s x) := by
  constructor
  · intro m1 n m2 hn hm2 hk
    obtain ⟨B1, B2, W', h, hv, h1, h2⟩ := C60_qr_left tri t hn hm2 hib hk0 hk (s V) (s T) (s A1) (s A2) W
    have e : (if tri = true then ttV m1 (s V) else tsV m1 (s V)) = stV tri m1 (s V) := by cases tri <;> rfl
    rw [e] at hv
    obtain ⟨e1, e2, e3⟩ := run_pair (rds := [(V, vReg tri m2 k), (T, tReg ib k)]) hA (r1 := box m1 n) (r2 := box m2 n)
      (f1 := fun s i j => lmul (qop t (wy (m1 + m2) k ib (stV tri m1 (s V)) (s T))) (vstack m1 (s A1) (s A2)) i j)
      (f2 := fun s i j =>
        lmul (qop t (wy (m1 + m2) k ib (stV tri m1 (s V)) (s T))) (vstack m1 (s A1) (s A2)) (m1 + i) j)
      s (B1 := B1) (B2 := B2)
      (fun i j hij => by rw [← hv i j (by have := hij.1; omega) hij.2]; exact (if_pos hij.1).symm) h1
      (fun i j hij => by
        rw [← hv (m1 + i) j (by have := hij.1; omega) hij.2]; unfold vstack
        rw [if_neg (by omega), Nat.add_sub_cancel_left]) h2
    refine ⟨W', ?_, e3⟩
    rw [h]
    unfold stmqrL
    rw [e1, e2]
  · intro m n1 n2 hm hn2 hk
    obtain ⟨B1, B2, W', h, hv, h1, h2⟩ := C60_qr_right tri t hm hn2 hib hk0 hk (s V) (s T) (s A1) (s A2) W
    have e : (if tri = true then ttV n1 (s V) else tsV n1 (s V)) = stV tri n1 (s V) := by cases tri <;> rfl
    rw [e] at hv
    obtain ⟨e1, e2, e3⟩ := run_pair (rds := [(V, vReg tri n2 k), (T, tReg ib k)]) hA (r1 := box m n1) (r2 := box m n2)
      (f1 := fun s i j => rmul (hstack n1 (s A1) (s A2)) (qop t (wy (n1 + n2) k ib (stV tri n1 (s V)) (s T))) i j)
      (f2 := fun s i j =>
        rmul (hstack n1 (s A1) (s A2)) (qop t (wy (n1 + n2) k ib (stV tri n1 (s V)) (s T))) i (n1 + j))
      s (B1 := B1) (B2 := B2)
      (fun i j hij => by rw [← hv i j hij.1 (by have := hij.2; omega)]; exact (if_pos hij.2).symm) h1
      (fun i j hij => by
        rw [← hv i (n1 + j) hij.1 (by have := hij.2; omega)]; unfold hstack
        rw [if_neg (by omega), Nat.add_sub_cancel_left]) h2
    refine ⟨W', ?_, e3⟩
    rw [h]
    unfold stmqrR
    rw [e1, e2]

/-- C60: the same for `stmlqL` and, with no more rows than columns in `A1`, `stmlqR`. -/
theorem C60_lq_tasks_partial (tri t : Bool) {k ib : Nat} (hib : 0 < ib) (hk0 : 0 < k) {A1 A2 : M} (hA : A1 ≠ A2) (V T : M)
    (s : Store M α) (W : Tl α) :
    (∀ m1 n m2, 0 < n → 0 < m2 → k ≤ m1 → ∃ W',
      (if tri then zttmlq else ztsmlq) .left (tr t) m1 n m2 n k ib (ldLq .left n ib) (s V) (s T) (s A1, s A2, W) =
        some ((stmlqL tri t m1 n m2 k ib A1 A2 V T).run s A1, (stmlqL tri t m1 n m2 k ib A1 A2 V T).run s A2, W') ∧
      ∀ x, x ≠ A1 → x ≠ A2 → (stmlqL tri t m1 n m2 k ib A1 A2 V T).run s x = s x) ∧
    (∀ m n1 n2, 0 < m → m ≤ n1 → 0 < n2 → k ≤ n1 → ∃ W',
      (if tri then zttmlq else ztsmlq) .right (tr t) m n1 m n2 k ib (ldLq .right n1 ib) (s V) (s T) (s A1, s A2, W) =
        some ((stmlqR tri t m n1 n2 k ib A1 A2 V T).run s A1, (stmlqR tri t m n1 n2 k ib A1 A2 V T).run s A2, W') ∧
      ∀ x, x ≠ A1 → x ≠ A2 → (stmlqR tri t m n1 n2 k ib A1 A2 V T).run s x = s x) := by
  have eq : ∀ {d} (Q : Matrix (Fin d) (Fin d) α), qop t Qᴴ = qop (!t) Q := by
    intro d Q; cases t <;> simp [qop]
  constructor
  · intro m1 n m2 hn hm2 hk
    obtain ⟨B1, B2, W', h, hv, h1, h2⟩ := C60_lq_left tri t hn hm2 hib hk0 hk (s V) (s T) (s A1) (s A2) W
    have e : (if tri = true then ttV m1 (cT (s V)) else tsV m1 (cT (s V))) = stV tri m1 (cT (s V)) := by
      cases tri <;> rfl
    rw [e, eq] at hv
    unfold stmlqL
    obtain ⟨e1, e2, e3⟩ := run_pair (rds := _) hA (r1 := box m1 n) (r2 := box m2 n)
      (f1 := fun s i j =>
        lmul (qop (!t) (wy (m1 + m2) k ib (stV tri m1 (cT (s V))) (s T))) (vstack m1 (s A1) (s A2)) i j)
      (f2 := fun s i j =>
        lmul (qop (!t) (wy (m1 + m2) k ib (stV tri m1 (cT (s V))) (s T))) (vstack m1 (s A1) (s A2)) (m1 + i) j)
      s (B1 := B1) (B2 := B2)
      (fun i j hij => by rw [← hv i j (by have := hij.1; omega) hij.2]; exact (if_pos hij.1).symm) h1
      (fun i j hij => by
        rw [← hv (m1 + i) j (by have := hij.1; omega) hij.2]; unfold vstack
        rw [if_neg (by omega), Nat.add_sub_cancel_left]) h2
    refine ⟨W', ?_, e3⟩
    rw [h, e1, e2]
  · intro m n1 n2 hm hmn hn2 hk
    obtain ⟨B1, B2, W', h, hv, h1, h2⟩ := C60_lq_right_partial tri t hm hmn hn2 hib hk0 hk (s V) (s T) (s A1) (s A2) W
    have e : (if tri = true then ttV n1 (cT (s V)) else tsV n1 (cT (s V))) = stV tri n1 (cT (s V)) := by
      cases tri <;> rfl
    rw [e, eq] at hv
    unfold stmlqR
    obtain ⟨e1, e2, e3⟩ := run_pair (rds := _) hA (r1 := box m n1) (r2 := box m n2)
      (f1 := fun s i j =>
        rmul (hstack n1 (s A1) (s A2)) (qop (!t) (wy (n1 + n2) k ib (stV tri n1 (cT (s V))) (s T))) i j)
      (f2 := fun s i j =>
        rmul (hstack n1 (s A1) (s A2)) (qop (!t) (wy (n1 + n2) k ib (stV tri n1 (cT (s V))) (s T))) i (n1 + j))
      s (B1 := B1) (B2 := B2)
      (fun i j hij => by rw [← hv i j hij.1 (by have := hij.2; omega)]; exact (if_pos hij.2).symm) h1
      (fun i j hij => by
        rw [← hv i (n1 + j) hij.1 (by have := hij.2; omega)]; unfold hstack
        rw [if_neg (by omega), Nat.add_sub_cancel_left]) h2
    refine ⟨W', ?_, e3⟩
    rw [h, e1, e2]

end

/-! ### Cases -/

/-- Two blocks of reflectors, the second one of one column; second tile with fewer rows than reflectors. -/
example (A1 A2 W : Tl ℚ) := C60_qr_left true true (m1 := 3) (n := 2) (m2 := 2) (k := 3) (ib := 2) (by decide) (by decide)
  (by decide) (by decide) (by decide) (fun i j => (i : ℚ) + 2 * j) (fun i j => 1 + i + j) A1 A2 W

example (A1 A2 W : Tl ℚ) := C60_lq_right_partial true false (m := 2) (n1 := 3) (n2 := 2) (k := 3) (ib := 2) (by decide)
  (by decide) (by decide) (by decide) (by decide) (by decide) (fun i j => (i : ℚ) + 2 * j) (fun i j => 1 + i + j) A1 A2 W

/-- Numbers: one reflector with vector (1, 2) and factor 1/5 turns (3, 1) into (2, -1). -/
example : (ztsmqr .left .noTrans 1 1 1 1 1 1 1 (fun _ _ => (2 : ℚ)) (fun _ _ => 1 / 5)
    (fun _ _ => 3, fun _ _ => 1, fun _ _ => 100)).map (fun r => (r.1 0 0, r.2.1 0 0)) = some (2, -1) := by
  decide +kernel

end Verif.Props

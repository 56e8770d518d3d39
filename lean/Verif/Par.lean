/-
Tools for loop nests whose bodies update disjoint tiles, accumulation loops, and
element-level frames.
-/
import Verif.Driver

namespace Verif.Tile

open Verif.Layout Finset

universe u v w

/-- The loop `for (x = lo; x < hi; x++)`. -/
def span (lo hi : Nat) : List Nat := List.range' lo (hi - lo)

theorem mem_span {lo hi x : Nat} : x ∈ span lo hi ↔ lo ≤ x ∧ x < hi := by
  unfold span; rw [List.mem_range'_1]; omega

theorem nodup_span {lo hi : Nat} : (span lo hi).Nodup := List.nodup_range'

section
variable {M : Type u} {α : Type v}

/-! ### Element-level frame -/

/-- The tasks of `P` only write elements in `W`. -/
def WritesE (W : Foot M) (P : List (TTask M α)) : Prop :=
  ∀ t ∈ P, ∀ x i j, t.wr x i j → W x i j

theorem WritesE.frame {W : Foot M} {P : List (TTask M α)} (h : WritesE W P) (s : Store M α)
    {x : M} {i j : Nat} (hx : ¬ W x i j) : texec P s x i j = s x i j := by
  induction P generalizing s with
  | nil => rfl
  | cons t P ih =>
    rw [texec_cons, ih (fun t' ht' => h t' (List.mem_cons_of_mem _ ht'))]
    exact t.run_frame _ (fun hw => hx (h t (List.mem_cons_self ..) x i j hw))

theorem WritesE.nil {W : Foot M} : WritesE W ([] : List (TTask M α)) := by simp [WritesE]

theorem WritesE.append {W : Foot M} {P Q : List (TTask M α)} (hP : WritesE W P)
    (hQ : WritesE W Q) : WritesE W (P ++ Q) := by
  intro t ht; rcases List.mem_append.mp ht with h | h; exacts [hP t h, hQ t h]

theorem WritesE.flatMap {ι : Type w} {W : Foot M} {l : List ι} {g : ι → List (TTask M α)}
    (h : ∀ x ∈ l, WritesE W (g x)) : WritesE W (l.flatMap g) := by
  intro t ht; obtain ⟨x, hx, h'⟩ := List.mem_flatMap.mp ht; exact h x hx t h'

theorem WritesE.map {ι : Type w} {W : Foot M} {l : List ι} {g : ι → TTask M α}
    (h : ∀ x ∈ l, WritesE W [g x]) : WritesE W (l.map g) := by
  intro t ht; obtain ⟨x, hx, rfl⟩ := List.mem_map.mp ht; exact h x hx _ (by simp)

theorem WritesE.ite {W : Foot M} {c : Prop} [Decidable c] {P Q : List (TTask M α)}
    (hP : c → WritesE W P) (hQ : ¬ c → WritesE W Q) : WritesE W (if c then P else Q) := by
  split
  · exact hP ‹_›
  · exact hQ ‹_›

theorem WritesE.single {W : Foot M} {t : TTask M α} (h : ∀ x i j, t.wr x i j → W x i j) :
    WritesE W [t] := by
  intro t' ht'
  simp only [List.mem_singleton] at ht'
  subst ht'; exact h

theorem WritesE.cons {W : Foot M} {t : TTask M α} {P : List (TTask M α)} (ht : WritesE W [t])
    (hP : WritesE W P) : WritesE W (t :: P) := WritesE.append ht hP

theorem WritesE.writes {W : Foot M} {W' : M → Prop} {P : List (TTask M α)} (h : WritesE W P)
    (hw : ∀ x i j, W x i j → W' x) : Writes W' P := fun t ht x i j hx => hw _ i j (h t ht x i j hx)

theorem Writes.single {W : M → Prop} {t : TTask M α} (h : ∀ x i j, t.wr x i j → W x) :
    Writes W [t] := by
  intro t' ht'
  simp only [List.mem_singleton] at ht'
  subst ht'; exact h

theorem Good.cons {valid : Foot M} {t : TTask M α} {P : List (TTask M α)} (ht : Good valid [t])
    (hP : Good valid P) : Good valid (t :: P) := Good.append ht hP

theorem Writes.cons {W : M → Prop} {t : TTask M α} {P : List (TTask M α)} (ht : Writes W [t])
    (hP : Writes W P) : Writes W (t :: P) := Writes.append ht hP

/-! ### Closure properties of `Within` -/

theorem Within.nil {D : M → Prop} : Within D ([] : List (TTask M α)) := ⟨by simp, by simp⟩

theorem Within.append {D : M → Prop} {P Q : List (TTask M α)} (hP : Within D P)
    (hQ : Within D Q) : Within D (P ++ Q) := by
  constructor <;> intro t ht <;> rcases List.mem_append.mp ht with h | h
  exacts [hP.1 t h, hQ.1 t h, hP.2 t h, hQ.2 t h]

theorem Within.cons {D : M → Prop} {t : TTask M α} {P : List (TTask M α)} (ht : Within D [t])
    (hP : Within D P) : Within D (t :: P) := Within.append ht hP

theorem Within.flatMap {ι : Type w} {D : M → Prop} {l : List ι} {g : ι → List (TTask M α)}
    (h : ∀ x ∈ l, Within D (g x)) : Within D (l.flatMap g) := by
  constructor <;> intro t ht <;> obtain ⟨x, hx, h'⟩ := List.mem_flatMap.mp ht
  exacts [(h x hx).1 t h', (h x hx).2 t h']

theorem Within.map {ι : Type w} {D : M → Prop} {l : List ι} {g : ι → TTask M α}
    (h : ∀ x ∈ l, Within D [g x]) : Within D (l.map g) := by
  rw [List.map_eq_flatMap]; exact Within.flatMap h

theorem Within.ite {D : M → Prop} {c : Prop} [Decidable c] {P Q : List (TTask M α)}
    (hP : c → Within D P) (hQ : ¬ c → Within D Q) : Within D (if c then P else Q) := by
  split
  · exact hP ‹_›
  · exact hQ ‹_›

theorem Within.single {D : M → Prop} {t : TTask M α} (h1 : t.Local)
    (h2 : t.Inside (fun x _ _ => D x)) : Within D [t] :=
  ⟨by simpa using h1, by simpa using h2⟩

theorem Within.mono {D D' : M → Prop} {P : List (TTask M α)} (h : Within D P)
    (hD : ∀ x, D x → D' x) : Within D' P :=
  ⟨h.1, fun t ht x i j hx => hD x (h.2 t ht x i j hx)⟩

theorem Within.op0 {D : M → Prop} {c : M} {fc : Nat → Nat → Prop} {g : Tl α → Tl α}
    (h1 : (op0 c fc g).Local) (hc : D c) : Within D [op0 c fc g] :=
  .single h1 (op0_inside (fun _ _ _ => hc))

theorem Within.op1 {D : M → Prop} {a c : M} {fa fc : Nat → Nat → Prop} {g : Tl α → Tl α → Tl α}
    (h1 : (op1 a fa c fc g).Local) (ha : D a) (hc : D c) : Within D [op1 a fa c fc g] :=
  .single h1 (op1_inside (fun _ _ _ => ha) (fun _ _ _ => hc))

theorem Within.op2 {D : M → Prop} {a b c : M} {fa fb fc : Nat → Nat → Prop}
    {g : Tl α → Tl α → Tl α → Tl α} (h1 : (op2 a fa b fb c fc g).Local) (ha : D a) (hb : D b)
    (hc : D c) : Within D [op2 a fa b fb c fc g] :=
  .single h1 (op2_inside (fun _ _ _ => ha) (fun _ _ _ => hb) (fun _ _ _ => hc))

/-! ### Loops whose bodies own one tile each -/

/-- Body `p` updates tile `w p` only, and touches no tile owned by another body: the
loop computes in `w p` what body `p` alone computes. -/
theorem par {ι : Type w} {l : List ι} (hn : l.Nodup) {body : ι → List (TTask M α)} {o : ι → M}
    (hinj : ∀ p ∈ l, ∀ q ∈ l, o p = o q → p = q)
    (hB : ∀ p ∈ l, Within (fun t => (∀ q ∈ l, t ≠ o q) ∨ t = o p) (body p))
    (hW : ∀ p ∈ l, Writes (fun t => t = o p) (body p)) (s : Store M α) {p : ι} (hp : p ∈ l) :
    texec (l.flatMap body) s (o p) = texec (body p) s (o p) := by
  refine texec_indep (D := fun p t => (∀ q ∈ l, t ≠ o q) ∨ t = o p) hn hB ?_ s hp (Or.inr rfl)
  intro x hx y hy hxy
  refine (hW y hy).mono ?_
  rintro t rfl (h | h)
  · exact h y hy rfl
  · exact hxy (hinj _ hy _ hx h)

/-- Tiles not owned by any body do not change. -/
theorem par_frame {ι : Type w} {l : List ι} {body : ι → List (TTask M α)} {o : ι → M}
    (hW : ∀ p ∈ l, Writes (fun t => t = o p) (body p)) (s : Store M α) {t : M}
    (ht : ∀ q ∈ l, t ≠ o q) :
    texec (l.flatMap body) s t = s t := by
  have : Writes (fun t => ∃ q ∈ l, t = o q) (l.flatMap body) :=
    Writes.flatMap fun q hq => (hW q hq).mono fun t ht => ⟨q, hq, ht⟩
  refine this.frame s ?_
  rintro ⟨q, hq, h⟩; exact ht q hq h

/-- Bodies own one tile each, and no body touches a tile owned by a later body: every
body works on its own initial tile and on the final contents of all others. -/
theorem par_final {ι : Type w} {l : List ι} {R : ι → ι → Prop} (hl : l.Pairwise R)
    {body : ι → List (TTask M α)} {o : ι → M} {D : ι → M → Prop} (ho : ∀ p, D p (o p))
    (hR : ∀ p q, R p q → ¬ D p (o q)) (hB : ∀ p ∈ l, Within (D p) (body p))
    (hW : ∀ p ∈ l, Writes (fun t => t = o p) (body p)) (s : Store M α) {p : ι} (hp : p ∈ l)
    {s' : Store M α} (hs1 : s' (o p) = s (o p))
    (hs2 : ∀ x, D p x → x ≠ o p → s' x = texec (l.flatMap body) s x) :
    texec (l.flatMap body) s (o p) = texec (body p) s' (o p) := by
  obtain ⟨l1, l2, rfl⟩ := List.append_of_mem hp
  rw [List.pairwise_append, List.pairwise_cons] at hl
  obtain ⟨-, ⟨h2, -⟩, h12⟩ := hl
  have w1 : Writes (fun t => ∃ q ∈ l1, t = o q) (l1.flatMap body) := Writes.flatMap fun q hq =>
    (hW q (by simp [hq])).mono fun t ht => ⟨q, hq, ht⟩
  have w2 : Writes (fun t => ∃ q ∈ l2, t = o q) (l2.flatMap body) := Writes.flatMap fun q hq =>
    (hW q (by simp [hq])).mono fun t ht => ⟨q, hq, ht⟩
  rw [List.flatMap_append, List.flatMap_cons, texec_append, texec_append] at hs2 ⊢
  rw [w2.frame _ (x := o p)]
  · refine (hB p hp).congr ?_ _ (ho p)
    intro x hx
    by_cases hxo : x = o p
    · rw [hxo, hs1]
      apply w1.frame
      rintro ⟨q, hq, he⟩
      exact hR q p (h12 q hq p (by simp)) (he ▸ ho q)
    · rw [hs2 x hx hxo, w2.frame _ (x := x), (hW p hp).frame _ hxo]
      rintro ⟨q, hq, he⟩
      exact hR p q (h2 q hq) (he ▸ hx)
  · rintro ⟨q, hq, he⟩
    exact hR p q (h2 q hq) (he ▸ ho p)

/-- Bodies own one tile each, and no body touches a tile owned by an earlier body: every
body works on the initial contents of all tiles. -/
theorem par_init {ι : Type w} {l : List ι} {R : ι → ι → Prop} (hl : l.Pairwise R)
    {body : ι → List (TTask M α)} {o : ι → M} {D : ι → M → Prop} (ho : ∀ p, D p (o p))
    (hR : ∀ p q, R p q → ¬ D q (o p)) (hB : ∀ p ∈ l, Within (D p) (body p))
    (hW : ∀ p ∈ l, Writes (fun t => t = o p) (body p)) (s : Store M α) {p : ι} (hp : p ∈ l) :
    texec (l.flatMap body) s (o p) = texec (body p) s (o p) := by
  obtain ⟨l1, l2, rfl⟩ := List.append_of_mem hp
  rw [List.pairwise_append, List.pairwise_cons] at hl
  obtain ⟨-, ⟨h2, -⟩, h12⟩ := hl
  have w1 : Writes (fun t => ∃ q ∈ l1, t = o q) (l1.flatMap body) := Writes.flatMap fun q hq =>
    (hW q (by simp [hq])).mono fun t ht => ⟨q, hq, ht⟩
  have w2 : Writes (fun t => ∃ q ∈ l2, t = o q) (l2.flatMap body) := Writes.flatMap fun q hq =>
    (hW q (by simp [hq])).mono fun t ht => ⟨q, hq, ht⟩
  rw [List.flatMap_append, List.flatMap_cons, texec_append, texec_append]
  rw [w2.frame _ (x := o p)]
  · refine (hB p hp).congr ?_ _ (ho p)
    intro x hx
    apply w1.frame
    rintro ⟨q, hq, he⟩
    exact hR q p (h12 q hq p (by simp)) (he ▸ hx)
  · rintro ⟨q, hq, he⟩
    exact hR p q (h2 q hq) (he ▸ ho q)

/-- Bodies own one tile each: every body works on the final contents of the tiles owned by
earlier bodies and on the initial contents of its own tile and of those owned by later
ones. -/
theorem par_mixed {ι : Type w} {l : List ι} {R : ι → ι → Prop} (hl : l.Pairwise R)
    {body : ι → List (TTask M α)} {o : ι → M} {D : ι → M → Prop} (ho : ∀ p, D p (o p))
    (hR : ∀ p q, R p q → o p ≠ o q) (hB : ∀ p ∈ l, Within (D p) (body p))
    (hW : ∀ p ∈ l, Writes (fun t => t = o p) (body p)) (s : Store M α) {p : ι} (hp : p ∈ l)
    {s' : Store M α} (hs1 : s' (o p) = s (o p))
    (hE : ∀ q ∈ l, R q p → D p (o q) → s' (o q) = texec (l.flatMap body) s (o q))
    (hL : ∀ q ∈ l, R p q → D p (o q) → s' (o q) = s (o q))
    (hN : ∀ x, D p x → (∀ q ∈ l, x ≠ o q) → s' x = s x) :
    texec (l.flatMap body) s (o p) = texec (body p) s' (o p) := by
  obtain ⟨l1, l2, rfl⟩ := List.append_of_mem hp
  rw [List.pairwise_append, List.pairwise_cons] at hl
  obtain ⟨-, ⟨h2, -⟩, h12⟩ := hl
  have w1 : Writes (fun t => ∃ q ∈ l1, t = o q) (l1.flatMap body) := Writes.flatMap fun q hq =>
    (hW q (by simp [hq])).mono fun t ht => ⟨q, hq, ht⟩
  have w2 : Writes (fun t => ∃ q ∈ l2, t = o q) (l2.flatMap body) := Writes.flatMap fun q hq =>
    (hW q (by simp [hq])).mono fun t ht => ⟨q, hq, ht⟩
  rw [List.flatMap_append, List.flatMap_cons, texec_append, texec_append] at hE ⊢
  rw [w2.frame _ (x := o p)]
  · refine (hB p hp).congr ?_ _ (ho p)
    intro x hx
    by_cases hxo : x = o p
    · rw [hxo, hs1]
      apply w1.frame
      rintro ⟨q, hq, he⟩
      exact hR q p (h12 q hq p (by simp)) he.symm
    by_cases hx1 : ∃ q ∈ l1, x = o q
    · obtain ⟨q, hq, rfl⟩ := hx1
      rw [hE q (by simp [hq]) (h12 q hq p (by simp)) hx, w2.frame _ (x := o q), (hW p hp).frame _ hxo]
      rintro ⟨q', hq', he⟩
      exact hR q q' (h12 q hq q' (by simp [hq'])) he
    · rw [w1.frame _ hx1]
      by_cases hx2 : ∃ q ∈ l2, x = o q
      · obtain ⟨q, hq, rfl⟩ := hx2
        rw [hL q (by simp [hq]) (h2 q hq) hx]
      · rw [hN x hx]
        intro q hq he
        rw [List.mem_append, List.mem_cons] at hq
        rcases hq with hq | rfl | hq
        · exact hx1 ⟨q, hq, he⟩
        · exact hxo he
        · exact hx2 ⟨q, hq, he⟩
  · rintro ⟨q, hq, he⟩
    exact hR p q (h2 q hq) he

/-- An accumulation loop over one tile: the first body turns the element into
`v0 + u 0`, every later one adds `u k`. -/
theorem acc_chain [AddCommMonoid α] {c : M} {T : Nat → List (TTask M α)}
    (hw : ∀ k, Writes (fun t => t = c) (T k)) (s0 : Store M α) {i j : Nat} (v0 : α) (u : Nat → α)
    (h0 : ∀ s, (∀ t, t ≠ c → s t = s0 t) → s c i j = s0 c i j → texec (T 0) s c i j = v0 + u 0)
    (hs : ∀ k s, (∀ t, t ≠ c → s t = s0 t) → s c i j = v0 + ∑ l ∈ range (k + 1), u l →
      texec (T (k + 1)) s c i j = v0 + ∑ l ∈ range (k + 1), u l + u (k + 1)) (K : Nat) (hK : 0 < K) :
    texec ((List.range K).flatMap T) s0 c i j = v0 + ∑ l ∈ range K, u l := by
  obtain ⟨K, rfl⟩ : ∃ K', K = K' + 1 := ⟨K - 1, by omega⟩
  clear hK
  induction K with
  | zero =>
    rw [show List.range (0 + 1) = [0] from rfl, List.flatMap_singleton, h0 s0 (fun _ _ => rfl) rfl]
    simp
  | succ K ih =>
    rw [List.range_succ, List.flatMap_append, texec_append, List.flatMap_singleton]
    have hfr : Writes (fun t => t = c) ((List.range (K + 1)).flatMap T) :=
      Writes.flatMap fun k _ => hw k
    rw [hs K _ (fun t ht => hfr.frame s0 ht) ih, add_assoc, ← sum_range_succ]

/-! ### Triangular index sets -/

/-- Index pairs visited by a loop over `n` with an inner loop over `S n`. -/
def triPairs (L : List Nat) (S : Nat → List Nat) : List (Nat × Nat) :=
  L.flatMap fun n => (n, n) :: (S n).map fun m => (n, m)

theorem mem_triPairs {L : List Nat} {S : Nat → List Nat} {p : Nat × Nat} :
    p ∈ triPairs L S ↔ p.1 ∈ L ∧ (p.2 = p.1 ∨ p.2 ∈ S p.1) := by
  obtain ⟨a, b⟩ := p
  simp only [triPairs, List.mem_flatMap, List.mem_cons, List.mem_map, Prod.mk.injEq]
  constructor
  · rintro ⟨n, hn, ⟨rfl, rfl⟩ | ⟨m, hm, rfl, rfl⟩⟩
    · exact ⟨hn, Or.inl rfl⟩
    · exact ⟨hn, Or.inr hm⟩
  · rintro ⟨ha, rfl | hb⟩
    · exact ⟨_, ha, Or.inl ⟨rfl, rfl⟩⟩
    · exact ⟨a, ha, Or.inr ⟨b, hb, rfl, rfl⟩⟩

theorem nodup_triPairs {L : List Nat} {S : Nat → List Nat} (hL : L.Nodup) (hS : ∀ n, (S n).Nodup)
    (hd : ∀ n, n ∉ S n) : (triPairs L S).Nodup := by
  unfold triPairs
  rw [List.nodup_flatMap]
  refine ⟨fun n _ => ?_, ?_⟩
  · rw [List.nodup_cons]
    refine ⟨?_, (hS n).map (fun a b h => (Prod.mk.inj h).2)⟩
    rw [List.mem_map]
    rintro ⟨m, hm, he⟩
    rw [Prod.mk.injEq] at he
    exact hd n (he.2 ▸ hm)
  · refine List.Pairwise.imp ?_ hL
    intro a b hab x hx hy
    have h1 : x.1 = a := by
      simp only [List.mem_cons, List.mem_map] at hx
      rcases hx with rfl | ⟨_, _, rfl⟩ <;> rfl
    have h2 : x.1 = b := by
      simp only [List.mem_cons, List.mem_map] at hy
      rcases hy with rfl | ⟨_, _, rfl⟩ <;> rfl
    exact hab (h1.symm.trans h2)

theorem flatMap_triPairs {L : List Nat} {S : Nat → List Nat} (hd : ∀ n, n ∉ S n)
    (A : Nat → List (TTask M α)) (B : Nat → Nat → List (TTask M α)) :
    (L.flatMap fun n => A n ++ (S n).flatMap fun m => B n m) =
    (triPairs L S).flatMap fun p => if p.2 = p.1 then A p.1 else B p.1 p.2 := by
  unfold triPairs
  rw [List.flatMap_assoc]
  congr 1; funext n
  rw [List.flatMap_cons, List.flatMap_map, if_pos rfl]
  congr 1
  apply List.flatMap_congr
  intro m hm
  rw [if_neg]
  intro h
  have h' : m = n := h
  exact hd n (h' ▸ hm)

end

/-! ### Blocks that fit -/

variable {M : Type u} {α : Type v}

theorem FitsOn.box {env : M → MatEnv} {b : Nat} {A : TMat M} (h : Fits env b A) {m n r c : Nat}
    (hr : r ≤ tdim A.d.m b m) (hc : c ≤ tdim A.d.n b n) :
    ∀ i j, box r c i j → evalid env (A.at' m n) i j :=
  fun _ _ hij => h.valid (lt_of_lt_of_le hij.1 hr) (lt_of_lt_of_le hij.2 hc)

theorem gemm_single_good {env : M → MatEnv} [CommRing α] [StarRing α] {ta tb : Trans} {m n k : Nat}
    {alpha beta : α} {a b c : M × Nat × Nat}
    (ha : ∀ i j, (if ta = .noTrans then Tile.box m k else Tile.box k m) i j → evalid env a i j)
    (hb : ∀ i j, (if tb = .noTrans then Tile.box k n else Tile.box n k) i j → evalid env b i j)
    (hc : ∀ i j, Tile.box m n i j → evalid env c i j) :
    Good (evalid env) [coreGemm ta tb m n k alpha a b beta c] :=
  Good.single coreGemm_local op2_declared (op2_inside ha hb hc)

theorem gemm_within [CommRing α] [StarRing α] {D : M → Prop} {ta tb : Trans} {m n k : Nat}
    {alpha beta : α} {a b c : M} (ha : D a) (hb : D b) (hc : D c) :
    Within D [coreGemm ta tb m n k alpha a b beta c] :=
  Within.op2 coreGemm_local ha hb hc

/-- Effect of one matrix-multiplication task on its tile. -/
theorem gemm_run [CommRing α] [StarRing α] {ta tb : Trans} {m n k : Nat} {alpha beta : α} {a b c : M}
    (s : Store M α) {i j : Nat} (hij : Tile.box m n i j) :
    (coreGemm ta tb m n k alpha a b beta c).run s c i j =
      beta * s c i j + alpha * ∑ l ∈ range k, opE ta (s a) i l * opE tb (s b) l j := by
  unfold coreGemm; rw [op2_self, paste_in hij]

theorem divmod (r b : Nat) : r / b * b + r % b = r := by
  rw [Nat.mul_comm]; exact Nat.div_add_mod r b

end Verif.Tile

/-
Constructors for tile tasks (kernel calls with zero, one or two read-only tiles
and one updated tile) and lemmas for reasoning about loop nests of tasks.
-/
import Verif.Tile
import Mathlib.Data.List.Nodup
import Mathlib.Data.List.ProdSigma
import Mathlib.Data.List.Range

namespace Verif.Tile

universe u v w

section
variable {M : Type u} {α : Type v}

/-- Contents of one tile. -/
abbrev Tl (α : Type v) := Nat → Nat → α

/-- Elements of a rectangular operand with `r` rows and `c` columns. -/
def box (r c : Nat) : Nat → Nat → Prop := fun i j => i < r ∧ j < c

/-- A kernel updating tile `c` in place. -/
def op0 (c : M) (fc : Nat → Nat → Prop) (g : Tl α → Tl α) : TTask M α where
  deps := [(c, true)]
  rd := fun _ _ _ => False
  wr := fun x i j => x = c ∧ fc i j
  f := fun s _ i j => g (s c) i j

/-- A kernel reading tile `a` and updating tile `c`. -/
def op1 (a : M) (fa : Nat → Nat → Prop) (c : M) (fc : Nat → Nat → Prop)
    (g : Tl α → Tl α → Tl α) : TTask M α where
  deps := [(a, false), (c, true)]
  rd := fun x i j => x = a ∧ fa i j
  wr := fun x i j => x = c ∧ fc i j
  f := fun s _ i j => g (s a) (s c) i j

/-- A kernel reading tiles `a` and `b` and updating tile `c`. -/
def op2 (a : M) (fa : Nat → Nat → Prop) (b : M) (fb : Nat → Nat → Prop)
    (c : M) (fc : Nat → Nat → Prop) (g : Tl α → Tl α → Tl α → Tl α) : TTask M α where
  deps := [(a, false), (b, false), (c, true)]
  rd := fun x i j => (x = a ∧ fa i j) ∨ (x = b ∧ fb i j)
  wr := fun x i j => x = c ∧ fc i j
  f := fun s _ i j => g (s a) (s b) (s c) i j

/-- `new` on the elements of `fc`, `old` elsewhere. -/
noncomputable def paste (fc : Nat → Nat → Prop) (new old : Tl α) : Tl α := by
  classical exact fun i j => if fc i j then new i j else old i j

theorem paste_in {fc : Nat → Nat → Prop} {new old : Tl α} {i j : Nat} (h : fc i j) :
    paste fc new old i j = new i j := by simp [paste, h]

theorem paste_out {fc : Nat → Nat → Prop} {new old : Tl α} {i j : Nat} (h : ¬ fc i j) :
    paste fc new old i j = old i j := by simp [paste, h]

section
variable {a b c : M} {fa fb fc : Nat → Nat → Prop}

theorem op0_self {g : Tl α → Tl α} (s : Store M α) :
    (op0 c fc g).run s c = paste fc (g (s c)) (s c) := by
  funext i j
  by_cases h : fc i j <;> simp [TTask.run, op0, paste, h]

theorem op0_ne {g : Tl α → Tl α} (s : Store M α) {x : M} (h : x ≠ c) :
    (op0 c fc g).run s x = s x := by
  funext i j; simp [TTask.run, op0, h]

theorem op1_self {g : Tl α → Tl α → Tl α} (s : Store M α) :
    (op1 a fa c fc g).run s c = paste fc (g (s a) (s c)) (s c) := by
  funext i j
  by_cases h : fc i j <;> simp [TTask.run, op1, paste, h]

theorem op1_ne {g : Tl α → Tl α → Tl α} (s : Store M α) {x : M} (h : x ≠ c) :
    (op1 a fa c fc g).run s x = s x := by
  funext i j; simp [TTask.run, op1, h]

theorem op2_self {g : Tl α → Tl α → Tl α → Tl α} (s : Store M α) :
    (op2 a fa b fb c fc g).run s c = paste fc (g (s a) (s b) (s c)) (s c) := by
  funext i j
  by_cases h : fc i j <;> simp [TTask.run, op2, paste, h]

theorem op2_ne {g : Tl α → Tl α → Tl α → Tl α} (s : Store M α) {x : M} (h : x ≠ c) :
    (op2 a fa b fb c fc g).run s x = s x := by
  funext i j; simp [TTask.run, op2, h]

theorem op0_declared {g : Tl α → Tl α} : (op0 c fc g).Declared := by
  constructor
  · intro x i j h; exact h.elim
  · rintro x i j ⟨rfl, _⟩; simp [op0]

theorem op1_declared {g : Tl α → Tl α → Tl α} : (op1 a fa c fc g).Declared := by
  constructor
  · rintro x i j ⟨rfl, _⟩; exact ⟨false, by simp [op1]⟩
  · rintro x i j ⟨rfl, _⟩; simp [op1]

theorem op2_declared {g : Tl α → Tl α → Tl α → Tl α} : (op2 a fa b fb c fc g).Declared := by
  constructor
  · rintro x i j (⟨rfl, _⟩ | ⟨rfl, _⟩) <;> exact ⟨false, by simp [op2]⟩
  · rintro x i j ⟨rfl, _⟩; simp [op2]

theorem op0_local {g : Tl α → Tl α}
    (h : ∀ C C' : Tl α, (∀ i j, fc i j → C i j = C' i j) → ∀ i j, fc i j → g C i j = g C' i j) :
    (op0 c fc g).Local := by
  rintro s s' hs x i j ⟨rfl, hf⟩
  exact h _ _ (fun i j hij => hs _ _ _ (Or.inr ⟨rfl, hij⟩)) i j hf

theorem op1_local {g : Tl α → Tl α → Tl α}
    (h : ∀ A A' C C' : Tl α, (∀ i j, fa i j → A i j = A' i j) → (∀ i j, fc i j → C i j = C' i j) →
      ∀ i j, fc i j → g A C i j = g A' C' i j) :
    (op1 a fa c fc g).Local := by
  rintro s s' hs x i j ⟨rfl, hf⟩
  exact h _ _ _ _ (fun i j hij => hs _ _ _ (Or.inl ⟨rfl, hij⟩))
    (fun i j hij => hs _ _ _ (Or.inr ⟨rfl, hij⟩)) i j hf

theorem op2_local {g : Tl α → Tl α → Tl α → Tl α}
    (h : ∀ A A' B B' C C' : Tl α, (∀ i j, fa i j → A i j = A' i j) →
      (∀ i j, fb i j → B i j = B' i j) → (∀ i j, fc i j → C i j = C' i j) →
      ∀ i j, fc i j → g A B C i j = g A' B' C' i j) :
    (op2 a fa b fb c fc g).Local := by
  rintro s s' hs x i j ⟨rfl, hf⟩
  exact h _ _ _ _ _ _ (fun i j hij => hs _ _ _ (Or.inl (Or.inl ⟨rfl, hij⟩)))
    (fun i j hij => hs _ _ _ (Or.inl (Or.inr ⟨rfl, hij⟩)))
    (fun i j hij => hs _ _ _ (Or.inr ⟨rfl, hij⟩)) i j hf

theorem op0_inside {g : Tl α → Tl α} {valid : Foot M} (hc : ∀ i j, fc i j → valid c i j) :
    (op0 c fc g).Inside valid := by
  rintro x i j (h | ⟨rfl, h⟩)
  · exact h.elim
  · exact hc _ _ h

theorem op1_inside {g : Tl α → Tl α → Tl α} {valid : Foot M} (ha : ∀ i j, fa i j → valid a i j)
    (hc : ∀ i j, fc i j → valid c i j) :
    (op1 a fa c fc g).Inside valid := by
  rintro x i j (⟨rfl, h⟩ | ⟨rfl, h⟩)
  · exact ha _ _ h
  · exact hc _ _ h

theorem op2_inside {g : Tl α → Tl α → Tl α → Tl α} {valid : Foot M}
    (ha : ∀ i j, fa i j → valid a i j) (hb : ∀ i j, fb i j → valid b i j)
    (hc : ∀ i j, fc i j → valid c i j) :
    (op2 a fa b fb c fc g).Inside valid := by
  rintro x i j ((⟨rfl, h⟩ | ⟨rfl, h⟩) | ⟨rfl, h⟩)
  · exact ha _ _ h
  · exact hb _ _ h
  · exact hc _ _ h

end

/-! ### Programs -/

/-- Everything needed to apply `run_correct` to a program whose tasks declare what
they touch. -/
structure Good (valid : Foot M) (P : List (TTask M α)) : Prop where
  loc : ∀ t ∈ P, t.Local
  decl : ∀ t ∈ P, t.Declared
  ins : ∀ t ∈ P, t.Inside valid

theorem Good.nil {valid : Foot M} : Good valid ([] : List (TTask M α)) :=
  ⟨by simp, by simp, by simp⟩

theorem Good.append {valid : Foot M} {P Q : List (TTask M α)} (hP : Good valid P)
    (hQ : Good valid Q) : Good valid (P ++ Q) where
  loc := by intro t ht; rcases List.mem_append.mp ht with h | h; exacts [hP.loc t h, hQ.loc t h]
  decl := by intro t ht; rcases List.mem_append.mp ht with h | h; exacts [hP.decl t h, hQ.decl t h]
  ins := by intro t ht; rcases List.mem_append.mp ht with h | h; exacts [hP.ins t h, hQ.ins t h]

theorem Good.flatMap {ι : Type w} {valid : Foot M} {l : List ι} {g : ι → List (TTask M α)}
    (h : ∀ x ∈ l, Good valid (g x)) : Good valid (l.flatMap g) where
  loc := by
    intro t ht; obtain ⟨x, hx, h'⟩ := List.mem_flatMap.mp ht; exact (h x hx).loc t h'
  decl := by
    intro t ht; obtain ⟨x, hx, h'⟩ := List.mem_flatMap.mp ht; exact (h x hx).decl t h'
  ins := by
    intro t ht; obtain ⟨x, hx, h'⟩ := List.mem_flatMap.mp ht; exact (h x hx).ins t h'

theorem Good.map {ι : Type w} {valid : Foot M} {l : List ι} {g : ι → TTask M α}
    (h : ∀ x ∈ l, Good valid [g x]) : Good valid (l.map g) where
  loc := by
    intro t ht; obtain ⟨x, hx, rfl⟩ := List.mem_map.mp ht; exact (h x hx).loc _ (by simp)
  decl := by
    intro t ht; obtain ⟨x, hx, rfl⟩ := List.mem_map.mp ht; exact (h x hx).decl _ (by simp)
  ins := by
    intro t ht; obtain ⟨x, hx, rfl⟩ := List.mem_map.mp ht; exact (h x hx).ins _ (by simp)

theorem Good.single {valid : Foot M} {t : TTask M α} (h1 : t.Local) (h2 : t.Declared)
    (h3 : t.Inside valid) : Good valid [t] :=
  ⟨by simpa using h1, by simpa using h2, by simpa using h3⟩

theorem Good.ite {valid : Foot M} {c : Prop} [Decidable c] {P Q : List (TTask M α)}
    (hP : c → Good valid P) (hQ : ¬ c → Good valid Q) : Good valid (if c then P else Q) := by
  split
  · exact hP ‹_›
  · exact hQ ‹_›

/-- The tasks of `P` only write tiles satisfying `W`. -/
def Writes (W : M → Prop) (P : List (TTask M α)) : Prop :=
  ∀ t ∈ P, ∀ x i j, t.wr x i j → W x

theorem Writes.frame {W : M → Prop} {P : List (TTask M α)} (h : Writes W P) (s : Store M α)
    {x : M} (hx : ¬ W x) : texec P s x = s x := by
  induction P generalizing s with
  | nil => rfl
  | cons t P ih =>
    rw [texec_cons, ih (fun t' ht' => h t' (List.mem_cons_of_mem _ ht'))]
    funext i j
    apply t.run_frame
    intro hw
    exact hx (h t (List.mem_cons_self ..) x i j hw)

theorem Writes.nil {W : M → Prop} : Writes W ([] : List (TTask M α)) := by simp [Writes]

theorem Writes.append {W : M → Prop} {P Q : List (TTask M α)} (hP : Writes W P)
    (hQ : Writes W Q) : Writes W (P ++ Q) := by
  intro t ht; rcases List.mem_append.mp ht with h | h; exacts [hP t h, hQ t h]

theorem Writes.flatMap {ι : Type w} {W : M → Prop} {l : List ι} {g : ι → List (TTask M α)}
    (h : ∀ x ∈ l, Writes W (g x)) : Writes W (l.flatMap g) := by
  intro t ht; obtain ⟨x, hx, h'⟩ := List.mem_flatMap.mp ht; exact h x hx t h'

theorem Writes.map {ι : Type w} {W : M → Prop} {l : List ι} {g : ι → TTask M α}
    (h : ∀ x ∈ l, Writes W [g x]) : Writes W (l.map g) := by
  intro t ht; obtain ⟨x, hx, rfl⟩ := List.mem_map.mp ht; exact h x hx _ (by simp)

theorem Writes.ite {W : M → Prop} {c : Prop} [Decidable c] {P Q : List (TTask M α)}
    (hP : c → Writes W P) (hQ : ¬ c → Writes W Q) : Writes W (if c then P else Q) := by
  split
  · exact hP ‹_›
  · exact hQ ‹_›

theorem Writes.mono {W W' : M → Prop} {P : List (TTask M α)} (h : Writes W P)
    (hw : ∀ x, W x → W' x) : Writes W' P := fun t ht x i j hx => hw _ (h t ht x i j hx)

theorem writes_op0 {W : M → Prop} {c : M} {fc : Nat → Nat → Prop} {g : Tl α → Tl α} (h : W c) :
    Writes W [op0 c fc g] := by
  intro t ht x i j hw
  simp only [List.mem_singleton] at ht
  subst ht
  exact hw.1 ▸ h

theorem writes_op1 {W : M → Prop} {a c : M} {fa fc : Nat → Nat → Prop} {g : Tl α → Tl α → Tl α}
    (h : W c) : Writes W [op1 a fa c fc g] := by
  intro t ht x i j hw
  simp only [List.mem_singleton] at ht
  subst ht
  exact hw.1 ▸ h

theorem writes_op2 {W : M → Prop} {a b c : M} {fa fb fc : Nat → Nat → Prop}
    {g : Tl α → Tl α → Tl α → Tl α} (h : W c) : Writes W [op2 a fa b fb c fc g] := by
  intro t ht x i j hw
  simp only [List.mem_singleton] at ht
  subst ht
  exact hw.1 ▸ h

/-- The tasks of `P` are local and touch only tiles satisfying `D`. -/
def Within (D : M → Prop) (P : List (TTask M α)) : Prop :=
  (∀ t ∈ P, t.Local) ∧ ∀ t ∈ P, t.Inside (fun x _ _ => D x)

theorem Within.congr {D : M → Prop} {P : List (TTask M α)} (h : Within D P) {s s' : Store M α}
    (hs : ∀ x, D x → s x = s' x) : ∀ x, D x → texec P s x = texec P s' x := by
  intro x hx
  funext i j
  exact texec_congr (valid := fun x _ _ => D x) P h.1 h.2 s s'
    (fun a i j ha => by rw [hs a ha]) x i j hx

theorem texec_flatMap {ι : Type w} (l : List ι) (g : ι → List (TTask M α)) (s : Store M α) :
    texec (l.flatMap g) s = l.foldl (fun s x => texec (g x) s) s := by
  induction l generalizing s with
  | nil => rfl
  | cons x l ih => simp only [List.flatMap_cons, texec_append, ih, List.foldl_cons]

/-- **Independent loop bodies.**  If body `x` touches only `D x` and no other body
writes into `D x`, the loop computes on `D x` what body `x` alone computes. -/
theorem texec_indep {ι : Type w} {l : List ι} (hn : l.Nodup) {g : ι → List (TTask M α)}
    {D : ι → M → Prop} (hD : ∀ x ∈ l, Within (D x) (g x))
    (hW : ∀ x ∈ l, ∀ y ∈ l, y ≠ x → Writes (fun t => ¬ D x t) (g y))
    (s : Store M α) {x : ι} (hx : x ∈ l) {t : M} (ht : D x t) :
    texec (l.flatMap g) s t = texec (g x) s t := by
  obtain ⟨p, q, rfl⟩ := List.append_of_mem hx
  have hnd := List.nodup_append.mp hn
  have hp : ∀ y ∈ p, y ≠ x := fun y hy he =>
    hnd.2.2 y hy x (List.mem_cons_self ..) he
  have hq : ∀ y ∈ q, y ≠ x := fun y hy he =>
    (List.nodup_cons.mp hnd.2.1).1 (he ▸ hy)
  rw [List.flatMap_append, List.flatMap_cons, texec_append, texec_append]
  have hwq : Writes (fun t => ¬ D x t) (q.flatMap g) := Writes.flatMap fun y hy =>
    hW x hx y (List.mem_append_right _ (List.mem_cons_of_mem _ hy)) (hq y hy)
  rw [hwq.frame _ (by simpa using ht)]
  have hwp : Writes (fun t => ¬ D x t) (p.flatMap g) := Writes.flatMap fun y hy =>
    hW x hx y (List.mem_append_left _ hy) (hp y hy)
  exact (hD x hx).congr (fun z hz => hwp.frame _ (by simpa using hz)) t ht

theorem flatMap_product {ι κ : Type w} (l : List ι) (l' : List κ) (g : ι → κ → List (TTask M α)) :
    (l.flatMap fun x => l'.flatMap fun y => g x y) = (l ×ˢ l').flatMap fun p => g p.1 p.2 := by
  simp only [SProd.sprod, List.product, List.flatMap_assoc, List.flatMap_map]

end

end Verif.Tile

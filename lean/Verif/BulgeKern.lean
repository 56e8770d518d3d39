/-
The kernels of the bulge chasing: core_blas/core_zgbtype1cb.c, core_zgbtype2cb.c, core_zgbtype3cb.c.
-/
import Verif.BulgeLegal
import Verif.Fact

namespace Verif.Bulge

open Verif.Sched Verif.Tile Verif.Fact Verif.Qr Finset

set_option linter.unusedSectionVars false

universe v

section
variable {𝕜 : Type v} [RCLike 𝕜]

/-- A reflector made of row `r`, columns `st ..`, of length `len`: the conjugated row is copied to `V`, zeros are stored in its
place, and `zlarfg` is called on the copy (core_blas/core_zgbtype1cb.c:152-160,189-196, core_blas/core_zgbtype2cb.c:171-180,
core_blas/core_zgbtype3cb.c:169-177).  `h` selects the half of `V` and `TAU` (`wantz = 0`), or the sweep
(otherwise). -/
noncomputable def genRow (V T : CM) (h r st len : Nat) (s : Store CM 𝕜) : Store CM 𝕜 :=
  let g := larfg len (star (s .a r st)) fun i => star (s .a r (st + 1 + i))
  fun x i j =>
    if x = .a then (if i = r ∧ j = st then g.1 else if i = r ∧ st < j ∧ j < st + len then 0 else s x i j)
    else if x = V then (if i = h ∧ j = st then 1 else if i = h ∧ st < j ∧ j < st + len then g.2.1 (j - st - 1) else s x i j)
    else if x = T then (if i = h ∧ j = st then g.2.2 else s x i j)
    else s x i j

/-- A reflector made of column `c`, rows `st ..` (core_blas/core_zgbtype1cb.c:166-170,179-183, core_blas/core_zgbtype2cb.c:216-221,
core_blas/core_zgbtype3cb.c:152-156). -/
noncomputable def genCol (V T : CM) (h c st len : Nat) (s : Store CM 𝕜) : Store CM 𝕜 :=
  let g := larfg len (s .a st c) fun i => s .a (st + 1 + i) c
  fun x i j =>
    if x = .a then (if j = c ∧ i = st then g.1 else if j = c ∧ st < i ∧ i < st + len then 0 else s x i j)
    else if x = V then (if i = h ∧ j = st then 1 else if i = h ∧ st < j ∧ j < st + len then g.2.1 (j - st - 1) else s x i j)
    else if x = T then (if i = h ∧ j = st then g.2.2 else s x i j)
    else s x i j

/-- `zlarfx` from the right (LAPACK documentation): `C := C (I - tau v v^H)` for rows `r0 .. r0+m-1`, columns `st .. st+len-1`; `C` has
leading dimension `lda-1`, so that its elements are elements of the band matrix (core_blas/core_zgbtype1cb.c:161-164). -/
noncomputable def appR (V T : CM) (h st len r0 m : Nat) (s : Store CM 𝕜) : Store CM 𝕜 := fun x i j =>
  if x = .a ∧ r0 ≤ i ∧ i < r0 + m ∧ st ≤ j ∧ j < st + len then
    s .a i j - (∑ l ∈ range len, s .a i (st + l) * s V h (st + l)) * s T h st * star (s V h j)
  else s x i j

/-- `zlarfx` from the left with `conj(tau)`: `C := (I - conj(tau) v v^H) C` for rows `st .. st+len-1`, columns `c0 .. c0+m-1`
(core_blas/core_zgbtype1cb.c:171-174). -/
noncomputable def appL (V T : CM) (h st len c0 m : Nat) (s : Store CM 𝕜) : Store CM 𝕜 := fun x i j =>
  if x = .a ∧ st ≤ i ∧ i < st + len ∧ c0 ≤ j ∧ j < c0 + m then
    s .a i j - s V h i * star (s T h st) * ∑ l ∈ range len, star (s V h (st + l)) * s .a (st + l) j
  else s x i j

/-- Half of `V` and `TAU` that a sweep, counted from one, uses when no vectors are wanted (core_blas/core_zgbtype1cb.c:134-136). -/
def par (sweep : Nat) : Nat := sweep % 2

/-- `plasma_core_zgbtype1cb` (core_blas/core_zgbtype1cb.c:123-204).  `sel` is `par` for `wantz = 0`, and the identity otherwise, when `findVTpos`
gives every sweep places of its own. -/
noncomputable def zgbtype1cb (sel : Nat → Nat) (up : Bool) (st ed sweep : Nat) (s : Store CM 𝕜) : Store CM 𝕜 :=
  let h := sel (sweep + 1)
  let len := ed + 1 - st
  if up then
    appL .q .tq h st len (st + 1) (len - 1) (genCol .q .tq h st st len
      (appR .p .tp h st len st len (genRow .p .tp h (st - 1) st len s)))
  else
    appR .p .tp h st len (st + 1) (len - 1) (genRow .p .tp h st st len
      (appL .q .tq h st len st len (genCol .q .tq h (st - 1) st len s)))

/-- `plasma_core_zgbtype2cb` (core_blas/core_zgbtype2cb.c:128-235). -/
noncomputable def zgbtype2cb (sel : Nat → Nat) (up : Bool) (n nb st ed sweep : Nat) (s : Store CM 𝕜) : Store CM 𝕜 :=
  let h := sel (sweep + 1)
  let J1 := ed + 1
  let J2 := min (ed + nb) (n - 1)
  let lem := ed + 1 - st
  let len := J2 + 1 - J1
  if up then
    let s := if len > 0 then appL .q .tq h st lem J1 len s else s
    if len > 1 then appR .p .tp h J1 len (st + 1) (lem - 1) (genRow .p .tp h st J1 len s) else s
  else
    let s := if len > 0 then appR .p .tp h st lem J1 len s else s
    if len > 1 then appL .q .tq h J1 len (st + 1) (lem - 1) (genCol .q .tq h st J1 len s) else s

/-- `plasma_core_zgbtype3cb` (core_blas/core_zgbtype3cb.c:122-185). -/
noncomputable def zgbtype3cb (sel : Nat → Nat) (up : Bool) (st ed sweep : Nat) (s : Store CM 𝕜) : Store CM 𝕜 :=
  let h := sel (sweep + 1)
  let len := ed + 1 - st
  if up then
    appL .q .tq h st len (st + 1) (len - 1) (genCol .q .tq h st st len (appR .p .tp h st len st len s))
  else
    appR .p .tp h st len (st + 1) (len - 1) (genRow .p .tp h st st len (appL .q .tq h st len st len s))

/-- The kernel called for a block (compute/pzgbbrd_static.c:141-162). -/
noncomputable def kern (sel : Nat → Nat) (up : Bool) (n nb : Nat) (b : Blk) : Store CM 𝕜 → Store CM 𝕜 :=
  if b.1 = 1 then zgbtype1cb sel up (stind nb b - 1) (edind n nb b - 1) (b.2 - 1)
  else if b.1 % 2 = 0 then zgbtype2cb sel up n nb (stind nb b - 1) (edind n nb b - 1) (b.2 - 1)
  else zgbtype3cb sel up (stind nb b - 1) (edind n nb b - 1) (b.2 - 1)

end

/-! ### Where the kernels work -/

/-- First row of the block, counted from zero. -/
def bst (nb : Nat) (b : Blk) : Nat := b.2 + (b.1 - 1) / 2 * nb

/-- Last row of the block. -/
def bed (n nb : Nat) (b : Blk) : Nat := min (bst nb b + nb - 1) (n - 1)

/-- `J2` of the block. -/
def bj2 (n nb : Nat) (b : Blk) : Nat := min (bed n nb b + nb) (n - 1)

/-- Elements of the band matrix that a block touches, for `PlasmaUpper`. -/
def footA (n nb : Nat) (b : Blk) (r c : Nat) : Prop :=
  if b.1 % 2 = 0 then bst nb b ≤ r ∧ r ≤ bed n nb b ∧ bed n nb b < c ∧ c ≤ bj2 n nb b
  else (bst nb b ≤ r ∨ (b.1 = 1 ∧ r + 1 = bst nb b)) ∧ r ≤ bed n nb b ∧ bst nb b ≤ c ∧ c ≤ bed n nb b

/-- Elements of `VQ` that a block touches, for `PlasmaUpper`. -/
def footQ (sel : Nat → Nat) (n nb : Nat) (b : Blk) (h j : Nat) : Prop := h = sel b.2 ∧ bst nb b ≤ j ∧ j ≤ bed n nb b

/-- Elements of `VP` that a block touches, for `PlasmaUpper`. -/
def footP (sel : Nat → Nat) (n nb : Nat) (b : Blk) (h j : Nat) : Prop :=
  h = sel b.2 ∧ if b.1 % 2 = 0 then bed n nb b < j ∧ j ≤ bj2 n nb b ∧ bed n nb b + 1 < bj2 n nb b
    else bst nb b ≤ j ∧ j ≤ bed n nb b

/-- Elements of `TAUQ` that a block touches, for `PlasmaUpper`. -/
def footTQ (sel : Nat → Nat) (nb : Nat) (b : Blk) (h j : Nat) : Prop := h = sel b.2 ∧ j = bst nb b

/-- Elements of `TAUP` that a block touches, for `PlasmaUpper`. -/
def footTP (sel : Nat → Nat) (n nb : Nat) (b : Blk) (h j : Nat) : Prop :=
  h = sel b.2 ∧ if b.1 % 2 = 0 then j = bed n nb b + 1 ∧ bed n nb b + 1 < bj2 n nb b else j = bst nb b

/-- Elements that a block touches. -/
def foot (sel : Nat → Nat) (up : Bool) (n nb : Nat) (b : Blk) : Foot CM := fun x i j => match x with
  | .a => if up then footA n nb b i j else footA n nb b j i
  | .q => if up then footQ sel n nb b i j else footP sel n nb b i j
  | .tq => if up then footTQ sel nb b i j else footTP sel n nb b i j
  | .p => if up then footP sel n nb b i j else footQ sel n nb b i j
  | .tp => if up then footTP sel n nb b i j else footTQ sel nb b i j
  | .dep _ _ => False

section
variable {sel : Nat → Nat} {n nb : Nat} {b : Blk}

theorem stind_eq (hb : IsBlk n nb b) : stind nb b - 1 = bst nb b := by
  unfold stind bst
  rw [colpt_eq hb.2.2.1 hb.1, Nat.add_mul]
  omega

theorem edind_eq (hb : IsBlk n nb b) : edind n nb b - 1 = bed n nb b := by
  unfold edind bed bst
  rw [colpt_eq hb.2.2.1 hb.1, Nat.add_mul]
  omega

theorem half_eq (hb : IsBlk n nb b) : sel (b.2 - 1 + 1) = sel b.2 := by
  rw [Nat.sub_add_cancel hb.1]

/-- The first row of a block exists. -/
theorem bst_lt (hn : 2 ≤ n) (hnb : 0 < nb) (hb : IsBlk n nb b) : bst nb b < n := by
  obtain ⟨p, s⟩ := b
  obtain ⟨h1, h2, h3, h4⟩ := hb
  simp only at h1 h2 h3 h4
  unfold bst
  simp only
  rcases Nat.lt_or_ge p 3 with h | h
  · rw [show (p - 1) / 2 = 0 by omega]
    omega
  · obtain ⟨q, hq⟩ : ∃ q, (p - 1) / 2 = q + 1 := ⟨(p - 1) / 2 - 1, by omega⟩
    have h5 : ¬ isLast n nb (2 * q + 2, s) := by
      rw [last_iff hn hnb (by omega) h1]
      omega
    rw [isLast_even h1] at h5
    rw [hq, Nat.add_mul]
    omega

theorem bst_pos (hb : IsBlk n nb b) : 1 ≤ bst nb b := by
  have := hb.1
  unfold bst
  omega

theorem bst_le_bed (hn : 2 ≤ n) (hnb : 0 < nb) (hb : IsBlk n nb b) : bst nb b ≤ bed n nb b := by
  have := bst_lt hn hnb hb
  unfold bed
  omega

theorem bed_lt (hn : 2 ≤ n) : bed n nb b < n := by
  unfold bed
  omega

end

section
variable {𝕜 : Type v} [RCLike 𝕜]

/-- Two stores agree on a set. -/
def Agree (R : Foot CM) (s s' : Store CM 𝕜) : Prop := ∀ x i j, R x i j → s x i j = s' x i j

theorem larfg_congr {k : Nat} {a a' : 𝕜} {x x' : Nat → 𝕜} (ha : a = a') (hx : ∀ q, q < k - 1 → x q = x' q) :
    (larfg k a x).1 = (larfg k a' x').1 ∧ (larfg k a x).2.2 = (larfg k a' x').2.2 ∧
      ∀ q, q < k - 1 → (larfg k a x).2.1 q = (larfg k a' x').2.1 q := by
  subst ha
  have e : (∑ q ∈ range (k - 1), ‖x q‖ ^ 2) = ∑ q ∈ range (k - 1), ‖x' q‖ ^ 2 :=
    sum_congr rfl fun q hq => by rw [hx q (mem_range.mp hq)]
  unfold larfg
  simp only [e]
  refine ⟨trivial, trivial, fun q hq => ?_⟩
  rw [if_pos hq, if_pos hq, hx q hq]

variable {R : Foot CM} {V T : CM} {h st len : Nat} {s s' : Store CM 𝕜}

theorem genRow_agree {r : Nat} (hlen : 0 < len) (hR : ∀ j, st ≤ j → j < st + len → R .a r j) (hs : Agree R s s') :
    Agree R (genRow V T h r st len s) (genRow V T h r st len s') := by
  have h0 := hs .a r st (hR st le_rfl (by omega))
  have h1 : ∀ q, q < len - 1 → s .a r (st + 1 + q) = s' .a r (st + 1 + q) := fun q hq => hs _ _ _ (hR _ (by omega) (by omega))
  obtain ⟨g1, g2, g3⟩ := larfg_congr (k := len) (congrArg star h0) (x := fun i => star (s .a r (st + 1 + i)))
    (x' := fun i => star (s' .a r (st + 1 + i))) fun q hq => congrArg star (h1 q hq)
  intro x i j hx
  have hx := hs x i j hx
  unfold genRow
  rw [g1, g2]
  split_ifs
  any_goals rfl
  any_goals exact hx
  exact g3 _ (by omega)

theorem genCol_agree {c : Nat} (hlen : 0 < len) (hR : ∀ j, st ≤ j → j < st + len → R .a j c) (hs : Agree R s s') :
    Agree R (genCol V T h c st len s) (genCol V T h c st len s') := by
  have h0 := hs .a st c (hR st le_rfl (by omega))
  have h1 : ∀ q, q < len - 1 → s .a (st + 1 + q) c = s' .a (st + 1 + q) c := fun q hq => hs _ _ _ (hR _ (by omega) (by omega))
  obtain ⟨g1, g2, g3⟩ := larfg_congr (k := len) h0 (x := fun i => s .a (st + 1 + i) c) (x' := fun i => s' .a (st + 1 + i) c) h1
  intro x i j hx
  have hx := hs x i j hx
  unfold genCol
  rw [g1, g2]
  split_ifs
  any_goals rfl
  any_goals exact hx
  exact g3 _ (by omega)

theorem appR_agree {r0 m : Nat} (hV : ∀ j, st ≤ j → j < st + len → R V h j) (hT : 0 < len → R T h st)
    (hA : ∀ i j, r0 ≤ i → i < r0 + m → st ≤ j → j < st + len → R .a i j) (hs : Agree R s s') :
    Agree R (appR V T h st len r0 m s) (appR V T h st len r0 m s') := by
  intro x i j hx
  unfold appR
  split
  · rename_i hc
    obtain ⟨-, h1, h2, h3, h4⟩ := hc
    rw [hs _ _ _ (hA i j h1 h2 h3 h4), hs _ _ _ (hT (by omega)), hs _ _ _ (hV j h3 h4)]
    congr 3
    refine sum_congr rfl fun l hl => ?_
    have hl := mem_range.mp hl
    rw [hs _ _ _ (hA i (st + l) h1 h2 (by omega) (by omega)), hs _ _ _ (hV (st + l) (by omega) (by omega))]
  · exact hs _ _ _ hx

theorem appL_agree {c0 m : Nat} (hV : ∀ j, st ≤ j → j < st + len → R V h j) (hT : 0 < len → R T h st)
    (hA : ∀ i j, st ≤ i → i < st + len → c0 ≤ j → j < c0 + m → R .a i j) (hs : Agree R s s') :
    Agree R (appL V T h st len c0 m s) (appL V T h st len c0 m s') := by
  intro x i j hx
  unfold appL
  split
  · rename_i hc
    obtain ⟨-, h1, h2, h3, h4⟩ := hc
    rw [hs _ _ _ (hA i j h1 h2 h3 h4), hs _ _ _ (hT (by omega)), hs _ _ _ (hV i h1 h2)]
    congr 2
    refine sum_congr rfl fun l hl => ?_
    have hl := mem_range.mp hl
    rw [hs _ _ _ (hA (st + l) j (by omega) (by omega) h3 h4), hs _ _ _ (hV (st + l) (by omega) (by omega))]
  · exact hs _ _ _ hx

theorem genRow_frame {r : Nat} (hlen : 0 < len) (hA : ∀ j, st ≤ j → j < st + len → R .a r j)
    (hV : ∀ j, st ≤ j → j < st + len → R V h j) (hT : R T h st) {x : CM} {i j : Nat} (hx : ¬ R x i j) :
    genRow V T h r st len s x i j = s x i j := by
  unfold genRow
  split_ifs with h1 h2 h3 h4 h5 h6 h7 h8
  any_goals rfl
  · exact absurd (by rw [h1, h2.1, h2.2]; exact hA st le_rfl (by omega)) hx
  · exact absurd (by rw [h1, h3.1]; exact hA j (by omega) h3.2.2) hx
  · exact absurd (by rw [h4, h5.1, h5.2]; exact hV st le_rfl (by omega)) hx
  · exact absurd (by rw [h4, h6.1]; exact hV j (by omega) h6.2.2) hx
  · exact absurd (by rw [h7, h8.1, h8.2]; exact hT) hx

theorem genCol_frame {c : Nat} (hlen : 0 < len) (hA : ∀ j, st ≤ j → j < st + len → R .a j c)
    (hV : ∀ j, st ≤ j → j < st + len → R V h j) (hT : R T h st) {x : CM} {i j : Nat} (hx : ¬ R x i j) :
    genCol V T h c st len s x i j = s x i j := by
  unfold genCol
  split_ifs with h1 h2 h3 h4 h5 h6 h7 h8
  any_goals rfl
  · exact absurd (by rw [h1, h2.1, h2.2]; exact hA st le_rfl (by omega)) hx
  · exact absurd (by rw [h1, h3.1]; exact hA i (by omega) h3.2.2) hx
  · exact absurd (by rw [h4, h5.1, h5.2]; exact hV st le_rfl (by omega)) hx
  · exact absurd (by rw [h4, h6.1]; exact hV j (by omega) h6.2.2) hx
  · exact absurd (by rw [h7, h8.1, h8.2]; exact hT) hx

theorem appR_frame {r0 m : Nat} (hA : ∀ i j, r0 ≤ i → i < r0 + m → st ≤ j → j < st + len → R .a i j) {x : CM} {i j : Nat}
    (hx : ¬ R x i j) : appR V T h st len r0 m s x i j = s x i j := by
  unfold appR
  rw [if_neg]
  rintro ⟨rfl, h1, h2, h3, h4⟩
  exact hx (hA i j h1 h2 h3 h4)

theorem appL_frame {c0 m : Nat} (hA : ∀ i j, st ≤ i → i < st + len → c0 ≤ j → j < c0 + m → R .a i j) {x : CM} {i j : Nat}
    (hx : ¬ R x i j) : appL V T h st len c0 m s x i j = s x i j := by
  unfold appL
  rw [if_neg]
  rintro ⟨rfl, h1, h2, h3, h4⟩
  exact hx (hA i j h1 h2 h3 h4)

/-- A function that reads and writes only inside a set. -/
def Within (R : Foot CM) (f : Store CM 𝕜 → Store CM 𝕜) : Prop :=
  (∀ s s', Agree R s s' → Agree R (f s) (f s')) ∧ ∀ s x i j, ¬ R x i j → f s x i j = s x i j

theorem Within.comp {f g : Store CM 𝕜 → Store CM 𝕜} (hf : Within R f) (hg : Within R g) : Within R fun s => f (g s) :=
  ⟨fun s s' h => hf.1 _ _ (hg.1 _ _ h), fun s x i j hx => (hf.2 _ x i j hx).trans (hg.2 s x i j hx)⟩

theorem Within.id : Within R (fun s : Store CM 𝕜 => s) := ⟨fun _ _ h => h, fun _ _ _ _ _ => rfl⟩

theorem within_genRow {r : Nat} (hlen : 0 < len) (hA : ∀ j, st ≤ j → j < st + len → R .a r j)
    (hV : ∀ j, st ≤ j → j < st + len → R V h j) (hT : R T h st) : Within (𝕜 := 𝕜) R (genRow V T h r st len) :=
  ⟨fun _ _ hs => genRow_agree hlen hA hs, fun _ _ _ _ hx => genRow_frame hlen hA hV hT hx⟩

theorem within_genCol {c : Nat} (hlen : 0 < len) (hA : ∀ j, st ≤ j → j < st + len → R .a j c)
    (hV : ∀ j, st ≤ j → j < st + len → R V h j) (hT : R T h st) : Within (𝕜 := 𝕜) R (genCol V T h c st len) :=
  ⟨fun _ _ hs => genCol_agree hlen hA hs, fun _ _ _ _ hx => genCol_frame hlen hA hV hT hx⟩

theorem within_appR {r0 m : Nat} (hV : ∀ j, st ≤ j → j < st + len → R V h j) (hT : 0 < len → R T h st)
    (hA : ∀ i j, r0 ≤ i → i < r0 + m → st ≤ j → j < st + len → R .a i j) : Within (𝕜 := 𝕜) R (appR V T h st len r0 m) :=
  ⟨fun _ _ hs => appR_agree hV hT hA hs, fun _ _ _ _ hx => appR_frame hA hx⟩

theorem within_appL {c0 m : Nat} (hV : ∀ j, st ≤ j → j < st + len → R V h j) (hT : 0 < len → R T h st)
    (hA : ∀ i j, st ≤ i → i < st + len → c0 ≤ j → j < c0 + m → R .a i j) : Within (𝕜 := 𝕜) R (appL V T h st len c0 m) :=
  ⟨fun _ _ hs => appL_agree hV hT hA hs, fun _ _ _ _ hx => appL_frame hA hx⟩

variable {sel : Nat → Nat} {n nb : Nat} {b : Blk}

theorem kern_odd_within {up : Bool} (hn : 2 ≤ n) (hnb : 0 < nb) (hb : IsBlk n nb b) (h2 : b.1 % 2 ≠ 0) :
    Within (𝕜 := 𝕜) (foot sel up n nb b) (zgbtype3cb sel up (bst nb b) (bed n nb b) (b.2 - 1)) ∧
    (b.1 = 1 → Within (𝕜 := 𝕜) (foot sel up n nb b) (zgbtype1cb sel up (bst nb b) (bed n nb b) (b.2 - 1))) := by
  have hh := half_eq (sel := sel) hb
  have hle := bst_le_bed hn hnb hb
  have hpos := bst_pos hb
  cases up
  · have fa : ∀ i j, bst nb b ≤ i → i ≤ bed n nb b → bst nb b ≤ j → j ≤ bed n nb b → foot sel false n nb b .a i j := by
      intro i j h3 h4 h5 h6
      show footA n nb b j i
      unfold footA
      rw [if_neg h2]
      exact ⟨Or.inl h5, h6, h3, h4⟩
    have fq : ∀ j, bst nb b ≤ j → j ≤ bed n nb b → footQ sel n nb b (sel (b.2 - 1 + 1)) j := fun j h3 h4 => ⟨hh, h3, h4⟩
    have fp : ∀ j, bst nb b ≤ j → j ≤ bed n nb b → footP sel n nb b (sel (b.2 - 1 + 1)) j := fun j h3 h4 => ⟨hh, by
      rw [if_neg h2]; exact ⟨h3, h4⟩⟩
    have tq : footTQ sel nb b (sel (b.2 - 1 + 1)) (bst nb b) := ⟨hh, rfl⟩
    have tp : footTP sel n nb b (sel (b.2 - 1 + 1)) (bst nb b) := ⟨hh, by rw [if_neg h2]⟩
    have w1 : Within (𝕜 := 𝕜) (foot sel false n nb b) (fun s => appR .p .tp (sel (b.2 - 1 + 1)) (bst nb b) (bed n nb b + 1 - bst nb b)
        (bst nb b + 1) (bed n nb b + 1 - bst nb b - 1) (genRow .p .tp (sel (b.2 - 1 + 1)) (bst nb b) (bst nb b)
          (bed n nb b + 1 - bst nb b) (appL .q .tq (sel (b.2 - 1 + 1)) (bst nb b) (bed n nb b + 1 - bst nb b) (bst nb b)
            (bed n nb b + 1 - bst nb b) s))) := by
      refine (within_appR (fun j h3 h4 => ?_) (fun _ => ?_) (fun i j h3 h4 h5 h6 => ?_)).comp
        ((within_genRow (by omega) (fun j h3 h4 => ?_) (fun j h3 h4 => ?_) ?_).comp
          (within_appL (fun j h3 h4 => ?_) (fun _ => ?_) (fun i j h3 h4 h5 h6 => ?_)))
      · exact fq j (by omega) (by omega)
      · exact tq
      · exact fa _ _ (by omega) (by omega) (by omega) (by omega)
      · exact fa _ _ (by omega) (by omega) (by omega) (by omega)
      · exact fq j (by omega) (by omega)
      · exact tq
      · exact fp j (by omega) (by omega)
      · exact tp
      · exact fa _ _ (by omega) (by omega) (by omega) (by omega)
    refine ⟨w1, fun h1 => ?_⟩
    refine w1.comp (within_genCol (by omega) (fun j h3 h4 => ?_) (fun j h3 h4 => ?_) ?_)
    · show footA n nb b (bst nb b - 1) j
      unfold footA
      rw [if_neg h2]
      exact ⟨Or.inr ⟨h1, by omega⟩, by omega, by omega, by omega⟩
    · exact fp j (by omega) (by omega)
    · exact tp
  · have fa : ∀ i j, bst nb b ≤ i → i ≤ bed n nb b → bst nb b ≤ j → j ≤ bed n nb b → foot sel true n nb b .a i j := by
      intro i j h3 h4 h5 h6
      show footA n nb b i j
      unfold footA
      rw [if_neg h2]
      exact ⟨Or.inl h3, h4, h5, h6⟩
    have fq : ∀ j, bst nb b ≤ j → j ≤ bed n nb b → footQ sel n nb b (sel (b.2 - 1 + 1)) j := fun j h3 h4 => ⟨hh, h3, h4⟩
    have fp : ∀ j, bst nb b ≤ j → j ≤ bed n nb b → footP sel n nb b (sel (b.2 - 1 + 1)) j := fun j h3 h4 => ⟨hh, by
      rw [if_neg h2]; exact ⟨h3, h4⟩⟩
    have tq : footTQ sel nb b (sel (b.2 - 1 + 1)) (bst nb b) := ⟨hh, rfl⟩
    have tp : footTP sel n nb b (sel (b.2 - 1 + 1)) (bst nb b) := ⟨hh, by rw [if_neg h2]⟩
    have w1 : Within (𝕜 := 𝕜) (foot sel true n nb b) (fun s => appL .q .tq (sel (b.2 - 1 + 1)) (bst nb b) (bed n nb b + 1 - bst nb b)
        (bst nb b + 1) (bed n nb b + 1 - bst nb b - 1) (genCol .q .tq (sel (b.2 - 1 + 1)) (bst nb b) (bst nb b)
          (bed n nb b + 1 - bst nb b) (appR .p .tp (sel (b.2 - 1 + 1)) (bst nb b) (bed n nb b + 1 - bst nb b) (bst nb b)
            (bed n nb b + 1 - bst nb b) s))) := by
      refine (within_appL (fun j h3 h4 => ?_) (fun _ => ?_) (fun i j h3 h4 h5 h6 => ?_)).comp
        ((within_genCol (by omega) (fun j h3 h4 => ?_) (fun j h3 h4 => ?_) ?_).comp
          (within_appR (fun j h3 h4 => ?_) (fun _ => ?_) (fun i j h3 h4 h5 h6 => ?_)))
      · exact fq j (by omega) (by omega)
      · exact tq
      · exact fa _ _ (by omega) (by omega) (by omega) (by omega)
      · exact fa _ _ (by omega) (by omega) (by omega) (by omega)
      · exact fq j (by omega) (by omega)
      · exact tq
      · exact fp j (by omega) (by omega)
      · exact tp
      · exact fa _ _ (by omega) (by omega) (by omega) (by omega)
    refine ⟨w1, fun h1 => ?_⟩
    refine w1.comp (within_genRow (by omega) (fun j h3 h4 => ?_) (fun j h3 h4 => ?_) ?_)
    · show footA n nb b (bst nb b - 1) j
      unfold footA
      rw [if_neg h2]
      exact ⟨Or.inr ⟨h1, by omega⟩, by omega, by omega, by omega⟩
    · exact fp j (by omega) (by omega)
    · exact tp

theorem kern_even_within {up : Bool} (hn : 2 ≤ n) (hnb : 0 < nb) (hb : IsBlk n nb b) (h2 : b.1 % 2 = 0) :
    Within (𝕜 := 𝕜) (foot sel up n nb b) (zgbtype2cb sel up n nb (bst nb b) (bed n nb b) (b.2 - 1)) := by
  have hh := half_eq (sel := sel) hb
  have hle := bst_le_bed hn hnb hb
  have hj : min (bed n nb b + nb) (n - 1) = bj2 n nb b := rfl
  have fq : ∀ j, bst nb b ≤ j → j ≤ bed n nb b → footQ sel n nb b (sel (b.2 - 1 + 1)) j := fun j h3 h4 => ⟨hh, h3, h4⟩
  have fp : ∀ j, bed n nb b + 1 < bj2 n nb b → bed n nb b < j → j ≤ bj2 n nb b → footP sel n nb b (sel (b.2 - 1 + 1)) j :=
    fun j h0 h3 h4 => ⟨hh, by rw [if_pos h2]; exact ⟨h3, h4, h0⟩⟩
  have tq : footTQ sel nb b (sel (b.2 - 1 + 1)) (bst nb b) := ⟨hh, rfl⟩
  have tp : bed n nb b + 1 < bj2 n nb b → footTP sel n nb b (sel (b.2 - 1 + 1)) (bed n nb b + 1) := fun h0 => ⟨hh, by
    rw [if_pos h2]; exact ⟨rfl, h0⟩⟩
  have fa : ∀ i j, bst nb b ≤ i → i ≤ bed n nb b → bed n nb b < j → j ≤ bj2 n nb b → footA n nb b i j := by
    intro i j h3 h4 h5 h6
    unfold footA
    rw [if_pos h2]
    exact ⟨h3, h4, h5, h6⟩
  cases up
  · unfold zgbtype2cb
    simp only [hj, Bool.false_eq_true, if_false]
    have w1 : Within (𝕜 := 𝕜) (foot sel false n nb b) (fun s => if bj2 n nb b + 1 - (bed n nb b + 1) > 0 then
        appR .p .tp (sel (b.2 - 1 + 1)) (bst nb b) (bed n nb b + 1 - bst nb b) (bed n nb b + 1)
          (bj2 n nb b + 1 - (bed n nb b + 1)) s else s) := by
      split
      · refine within_appR (fun j h3 h4 => ?_) (fun _ => ?_) (fun i j h3 h4 h5 h6 => ?_)
        · exact fq j (by omega) (by omega)
        · exact tq
        · exact fa _ _ (by omega) (by omega) (by omega) (by omega)
      · exact Within.id
    split
    · rename_i hc
      refine (within_appL (fun j h3 h4 => ?_) (fun _ => ?_) (fun i j h3 h4 h5 h6 => ?_)).comp
        ((within_genCol (by omega) (fun j h3 h4 => ?_) (fun j h3 h4 => ?_) ?_).comp w1)
      · exact fp j (by omega) (by omega) (by omega)
      · exact tp (by omega)
      · exact fa _ _ (by omega) (by omega) (by omega) (by omega)
      · exact fa _ _ (by omega) (by omega) (by omega) (by omega)
      · exact fp j (by omega) (by omega) (by omega)
      · exact tp (by omega)
    · exact w1
  · unfold zgbtype2cb
    simp only [hj, if_true]
    have w1 : Within (𝕜 := 𝕜) (foot sel true n nb b) (fun s => if bj2 n nb b + 1 - (bed n nb b + 1) > 0 then
        appL .q .tq (sel (b.2 - 1 + 1)) (bst nb b) (bed n nb b + 1 - bst nb b) (bed n nb b + 1)
          (bj2 n nb b + 1 - (bed n nb b + 1)) s else s) := by
      split
      · refine within_appL (fun j h3 h4 => ?_) (fun _ => ?_) (fun i j h3 h4 h5 h6 => ?_)
        · exact fq j (by omega) (by omega)
        · exact tq
        · exact fa _ _ (by omega) (by omega) (by omega) (by omega)
      · exact Within.id
    split
    · rename_i hc
      refine (within_appR (fun j h3 h4 => ?_) (fun _ => ?_) (fun i j h3 h4 h5 h6 => ?_)).comp
        ((within_genRow (by omega) (fun j h3 h4 => ?_) (fun j h3 h4 => ?_) ?_).comp w1)
      · exact fp j (by omega) (by omega) (by omega)
      · exact tp (by omega)
      · exact fa _ _ (by omega) (by omega) (by omega) (by omega)
      · exact fa _ _ (by omega) (by omega) (by omega) (by omega)
      · exact fp j (by omega) (by omega) (by omega)
      · exact tp (by omega)
    · exact w1

/-- The kernels stay inside the declared footprints. -/
theorem kern_within {up : Bool} (hn : 2 ≤ n) (hnb : 0 < nb) (hb : IsBlk n nb b) :
    Within (𝕜 := 𝕜) (foot sel up n nb b) (kern sel up n nb b) := by
  unfold kern
  rw [stind_eq hb, edind_eq hb]
  split
  · rename_i h
    exact (kern_odd_within hn hnb hb (by omega)).2 h
  · split
    · rename_i h
      exact kern_even_within hn hnb hb h
    · rename_i h
      exact (kern_odd_within hn hnb hb h).1

end

/-! ### Blocks that the scheduler does not order touch different elements -/

section
variable {sel : Nat → Nat} {n nb : Nat} {a b : Blk}

theorem footTQ_sub (hn : 2 ≤ n) (hnb : 0 < nb) (hb : IsBlk n nb b) {h j : Nat} (k : footTQ sel nb b h j) : footQ sel n nb b h j := by
  have := bst_le_bed hn hnb hb
  obtain ⟨rfl, rfl⟩ := k
  exact ⟨rfl, le_rfl, this⟩

theorem footTP_sub (hn : 2 ≤ n) (hnb : 0 < nb) (hb : IsBlk n nb b) {h j : Nat} (k : footTP sel n nb b h j) : footP sel n nb b h j := by
  have := bst_le_bed hn hnb hb
  obtain ⟨rfl, k⟩ := k
  refine ⟨rfl, ?_⟩
  split <;> rename_i h2
  · rw [if_pos h2] at k
    omega
  · rw [if_neg h2] at k
    omega

theorem foot_apart (hsel : ∀ s s', sel s = sel s' → s % 2 = s' % 2) (hn : 2 ≤ n) (hnb : 0 < nb) (ha : IsBlk n nb a) (hb : IsBlk n nb b) (hlt : a.2 < b.2)
    (hfar : b.1 + 2 * (b.2 - a.2) < a.1) {up : Bool} (h : ∃ x i j, foot sel up n nb a x i j ∧ foot sel up n nb b x i j) :
    bst nb a = bst nb b ∧ tau a < tau b := by
  obtain ⟨p', s'⟩ := a
  obtain ⟨p, s⟩ := b
  simp only at hlt hfar
  have hb1 := hb.2.2.1
  have hs1 := ha.1
  simp only at hb1 hs1
  obtain ⟨k, rfl⟩ : ∃ k, s = s' + k := ⟨s - s', by omega⟩
  obtain ⟨q, hq⟩ : ∃ q, (p - 1) / 2 = q := ⟨_, rfl⟩
  obtain ⟨q', hq'⟩ : ∃ q', (p' - 1) / 2 = q' := ⟨_, rfl⟩
  have est : bst nb (p, s' + k) = s' + k + q * nb := by unfold bst; simp only [hq]
  have est' : bst nb (p', s') = s' + q' * nb := by unfold bst; simp only [hq']
  have eed : bed n nb (p, s' + k) = min (s' + k + q * nb + nb - 1) (n - 1) := by unfold bed; rw [est]
  have eed' : bed n nb (p', s') = min (s' + q' * nb + nb - 1) (n - 1) := by unfold bed; rw [est']
  have ej : bj2 n nb (p, s' + k) = min (bed n nb (p, s' + k) + nb) (n - 1) := rfl
  have ej' : bj2 n nb (p', s') = min (bed n nb (p', s') + nb) (n - 1) := rfl
  have hcase : q + k + 1 ≤ q' ∨ (q' = q + k ∧ p' % 2 = 0 ∧ p % 2 = 1) := by omega
  have hz : ∀ e, q + k + e ≤ q' → q * nb + k * nb + e * nb ≤ q' * nb := by
    intro e he
    have := Nat.mul_le_mul_right nb he
    rw [Nat.add_mul, Nat.add_mul] at this
    exact this
  have hk1 : k ≤ k * nb := Nat.le_mul_of_pos_right k hnb
  have hk2 : 2 ≤ k → k + 2 * nb ≤ k * nb + 2 := by
    intro h2
    obtain ⟨k', rfl⟩ := Nat.exists_eq_add_of_le h2
    obtain ⟨m, rfl⟩ := Nat.exists_eq_add_of_le hnb
    have e : (2 + k') * (1 + m) = 2 + 2 * m + k' + k' * m := by ring
    rw [Nat.succ_eq_add_one, Nat.zero_add, e]
    omega
  have hA : ∀ r c, footA n nb (p', s') r c → footA n nb (p, s' + k) r c → False := by
    intro r c h1 h2
    unfold footA at h1 h2
    simp only [est, est', eed, eed', ej, ej'] at h1 h2
    rcases hcase with hc | ⟨hc, hp', hp⟩
    · have := hz 1 hc
      split_ifs at h1 h2 <;> omega
    · have := hz 0 (by omega)
      rw [if_pos hp'] at h1
      rw [if_neg (by omega)] at h2
      omega
  have hQ : ∀ i j, footQ sel n nb (p', s') i j → footQ sel n nb (p, s' + k) i j → s' + q' * nb = s' + k + q * nb ∧ tau (p', s') < tau (p, s' + k) := by
    intro i j h1 h2
    unfold footQ at h1 h2
    simp only [est, est', eed, eed'] at h1 h2
    have hpar := hsel _ _ (h1.1.symm.trans h2.1)
    rcases hcase with hc | ⟨hc, hp', hp⟩
    · have := hz 1 hc
      omega
    · have h3 := hz 0 (by omega)
      have h4 := hk2 (by omega)
      have h5 : nb = 1 := by omega
      subst h5
      unfold tau
      simp only
      omega
  have hP : ∀ i j, footP sel n nb (p', s') i j → footP sel n nb (p, s' + k) i j → False := by
    intro i j h1 h2
    unfold footP at h1 h2
    simp only [est, est', eed, eed', ej, ej'] at h1 h2
    have hpar := hsel _ _ (h1.1.symm.trans h2.1)
    rcases hcase with hc | ⟨hc, hp', hp⟩
    · have h3 := hz 1 hc
      rw [Nat.one_mul] at h3
      have lo : s' + q' * nb ≤ j := by
        obtain ⟨-, h1⟩ := h1
        split at h1
        · obtain ⟨h5, h6, h7⟩ := h1
          clear h2 h3 hA hQ hk2 hk1 hz
          omega
        · exact h1.1
      by_cases hp : p % 2 = 0
      · rw [if_pos hp] at h2
        obtain ⟨h5, -, h6, h7⟩ := h2
        have hi : j ≤ s' + k + q * nb + nb - 1 + nb := by
          clear h1 h3 hA hQ hk2 hk1 hz lo
          omega
        have h8 := h1.1
        have h4 := hk2 (by clear h1 h3 hA hQ hk2 hk1 hz lo h6 h7; omega)
        have h9 : 2 ≤ nb := by
          clear h1 h3 hA hQ hk2 hk1 hz lo h4
          omega
        clear h1 hA hQ hk2 hk1 hz h6 h7
        omega
      · rw [if_neg hp] at h2
        obtain ⟨-, -, h6⟩ := h2
        clear h1 hA hQ hk2 hz
        omega
    · have h3 := hz 0 (by omega)
      rw [if_pos hp'] at h1
      rw [if_neg (by omega)] at h2
      obtain ⟨-, h5, h6, -⟩ := h1
      obtain ⟨-, -, h7⟩ := h2
      clear hA hQ hk2 hz
      omega
  rw [est, est']
  obtain ⟨x, i, j, h1, h2⟩ := h
  cases x with
  | dep => exact h1.elim
  | a =>
    cases up
    · exact (hA j i h1 h2).elim
    · exact (hA i j h1 h2).elim
  | q =>
    cases up
    · exact (hP i j h1 h2).elim
    · exact hQ i j h1 h2
  | tq =>
    cases up
    · exact (hP i j (footTP_sub hn hnb ha h1) (footTP_sub hn hnb hb h2)).elim
    · exact hQ i j (footTQ_sub hn hnb ha h1) (footTQ_sub hn hnb hb h2)
  | p =>
    cases up
    · exact hQ i j h1 h2
    · exact (hP i j h1 h2).elim
  | tp =>
    cases up
    · exact hQ i j (footTQ_sub hn hnb ha h1) (footTQ_sub hn hnb hb h2)
    · exact (hP i j (footTP_sub hn hnb ha h1) (footTP_sub hn hnb hb h2)).elim

end

end Verif.Bulge

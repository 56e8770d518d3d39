/-
Properties of `plasma_zhesv`, `plasma_zhetrf` and `plasma_zhetrs`: C78, C80, C81.
-/
import Verif.Hesv
import Verif.HesvSing
import Verif.Props.Aasen
import Verif.Props.GbRace

set_option linter.unusedSectionVars false

namespace Verif.Props

open Verif.Tile Verif.Layout Verif.LU Verif.Panel Verif.Heswp Verif.Aasen Finset

universe v w

section
variable {α : Type v} [Field α] [StarRing α] [DecidableEq α] {γ : Type w} [LinearOrder γ]
variable {E : IntCode α} {mag : α → γ} {dv : α → α → α} {big : α → Bool} {ib mpt mth : Nat}

/-- The Hermitian matrix given by the lower triangle of the user's array. -/
def hA (lda : Nat) (mem : Buf × Nat → α) (r c : Nat) : α :=
  if c ≤ r then mem (.usr 3, r + c * lda) else star (mem (.usr 3, c + r * lda))

theorem heInit_usr {p : HPar} {mem : Buf × Nat → α} {k x : Nat} (h : k ≠ 4 ∨ p.nb ≤ x) : heInit E p mem (.usr k, x) = mem (.usr k, x) := by
  unfold heInit
  split
  · rename_i e; cases e
  · rename_i e; cases e
  · rename_i e; cases e; exact if_neg (by omega)
  · rfl

section conv
variable {p : HPar}

/-- The conversions of `plasma_zhesv` and `plasma_zhetrs`. -/
theorem conv_good (h : p.OK) : GoodC (evalid p.env) (p.inA ++ pzpb2desc none p.uT p.tT ++ pzge2desc (α := α) p.uB p.tB) :=
  (((HPar.inA_good h).append (HPar.inT_good h)).append (HPar.inB_good h)).toC

theorem inA_phase : ∀ t ∈ p.inA (α := α), t.phase = 0 := by
  intro t ht
  unfold HPar.inA copyK at ht
  obtain ⟨_, -, ht⟩ := List.mem_flatMap.mp ht
  obtain ⟨_, -, rfl⟩ := List.mem_map.mp ht
  rfl

theorem inT_phase : ∀ t ∈ pzpb2desc (α := α) none p.uT p.tT, t.phase = 0 := by
  intro t ht
  unfold pzpb2desc at ht
  obtain ⟨_, -, ht⟩ := List.mem_flatMap.mp ht
  obtain ⟨_, -, rfl⟩ := List.mem_map.mp ht
  rfl

theorem conv_phase : ∀ t ∈ p.inA ++ pzpb2desc none p.uT p.tT ++ pzge2desc (α := α) p.uB p.tB, t.phase = 0 := by
  intro t ht
  rcases List.mem_append.mp ht with ht | ht
  · rcases List.mem_append.mp ht with ht | ht
    · exact inA_phase t ht
    · exact inT_phase t ht
  · exact copy_phase t ht

theorem conv_wr (h : p.OK) : Writes (fun x => x.1 = Buf.til 3 ∨ x.1 = Buf.til 0 ∨ x.1 = Buf.til 1)
    (p.inA ++ pzpb2desc none p.uT p.tT ++ pzge2desc (α := α) p.uB p.tB) :=
  (((HPar.inA_wr h).mono fun _ h => Or.inl h).append ((HPar.inT_wr h).mono fun _ h => Or.inr (Or.inl h))).append
    (HPar.inB_wr.mono fun _ h => Or.inr (Or.inr h))

theorem conv_A (h : p.OK) (mem : Buf × Nat → α) {r c : Nat} (hr : r < p.n) (hl : c ≤ r) :
    p.tA.el (texec (p.inA ++ pzpb2desc none p.uT p.tT ++ pzge2desc p.uB p.tB) (view (eloc p.env) mem)) r c = mem (.usr 3, r + c * p.lda) := by
  rw [texec_append, texec_append, gwr_el HPar.inB_wr (by simp [HPar.tA, TMat.full]), gwr_el (HPar.inT_wr h) (by simp [HPar.tA, TMat.full]),
    HPar.inA_el h _ hr (by omega) hl, HPar.uA_el h]

theorem conv_T (h : p.OK) (mem : Buf × Nat → α) {r c : Nat} (hr : r < p.n) (hc : c < p.n) (ht : bTile none p.nb p.nb p.nb (r / p.nb) (c / p.nb)) :
    p.tT.el (texec (p.inA ++ pzpb2desc none p.uT p.tT ++ pzge2desc p.uB p.tB) (view (eloc p.env) mem)) r c =
      if inB none p.nb p.nb p.nb (r / p.nb) (c / p.nb) r c then mem (.usr 0, 2 * p.nb + r + c * p.ldt - c) else 0 := by
  rw [texec_append, texec_append, gwr_el HPar.inB_wr (by simp [HPar.tT, bandT]), HPar.inT_el h _ hr hc ht]
  rw [gwr_el (HPar.inA_wr h) (by simp [HPar.uT, TMat.full]), HPar.uT_el h]

theorem conv_B (h : p.OK) (mem : Buf × Nat → α) {r c : Nat} (hr : r < p.n) (hc : c < p.nrhs) :
    p.tB.el (texec (p.inA ++ pzpb2desc none p.uT p.tT ++ pzge2desc p.uB p.tB) (view (eloc p.env) mem)) r c = mem (.usr 1, r + c * p.ldb) := by
  rw [texec_append, HPar.inB_el h _ hr hc, texec_append, gwr_el (HPar.inT_wr h) (by simp [HPar.uB, TMat.full]),
    gwr_el (HPar.inA_wr h) (by simp [HPar.uB, TMat.full]), HPar.uB_el h]

theorem conv_P (h : p.OK) (mem : Buf × Nat → α) (i : Nat) :
    p.uP.el (texec (p.inA ++ pzpb2desc none p.uT p.tT ++ pzge2desc p.uB p.tB) (view (eloc p.env) mem)) i 0 = mem (.usr 4, i) := by
  rw [gwr_el (conv_wr h) (by simp [HPar.uP, TMat.full]), HPar.uP_el h]

/-- The matrix of the factorization. -/
theorem herm_hA {lda : Nat} {mem : Buf × Nat → α} {X : Nat → Nat → α} {n : Nat} (h : ∀ r c, r < n → c ≤ r → X r c = mem (.usr 3, r + c * lda))
    {r c : Nat} (hr : r < n) (hc : c < n) : herm X r c = hA lda mem r c := by
  unfold herm hA
  by_cases hl : c ≤ r
  · rw [if_pos hl, if_pos hl, h r c hr hl]
  · rw [if_neg hl, if_neg hl, h c r hc (by omega)]

end conv

/-- The user's array `T` has zeros where the tiles two above the diagonal are. -/
def TPad (nb n ldt : Nat) (mem : Buf × Nat → α) : Prop :=
  ∀ r c, r < n → c < n → c / nb = r / nb + 2 → c ≤ r + 2 * nb → mem (.usr 0, 2 * nb + r + c * ldt - c) = 0

/-- Element `(r,c)` of the tile matrix `X` in memory. -/
def tEl (p : HPar) (X : TMat Buf) (mem : Buf × Nat → α) (r c : Nat) : α := X.el (view (eloc p.env) mem) r c

/-- **C78.** Every execution of `plasma_pzhetrf_aasen` in any order that the dependences allow, from a cleared workspace and with the pivots
that `plasma_zhetrf` sets: if the status is zero then `A` with rows and columns interchanged by `ipiv` is `L*T*L^H`, `T` is Hermitian, and
the pivots are in range; otherwise the status is an index larger than `nb`. -/
theorem C78_aasen (hmag : IsMag mag) (hdv : IsDiv dv) {p : HPar} (h : p.OK) (hib : 0 < ib) (hmpt : 0 < mpt) (mem mem' : Buf × Nat → α) (st : Int)
    (hw : ∀ x, mem (.til 5, x) = 0) (hp : ∀ i, i < p.nb → E.dec (mem (.usr 4, i)) = i + 1)
    (hd : ∀ i, i < p.n → star (tEl p p.tA mem i i) = tEl p p.tA mem i i)
    (hx : GExec p.env (pzhetrfAasen E mag dv big (p.cfg ib mpt mth) p.mats) mem mem' st) :
    (st = 0 →
      (∀ r c, r < p.n → c < p.n →
        herm (tEl p p.tA mem) (perm (fun i => E.dec (mem' (.usr 4, i)) - 1) 0 p.n r) (perm (fun i => E.dec (mem' (.usr 4, i)) - 1) 0 p.n c) =
        ∑ g ∈ range p.n, ∑ h ∈ range p.n, aL p.nb (tEl p p.tA mem') r g * aT p.nb (tEl p p.tT mem') g h * star (aL p.nb (tEl p p.tA mem') c h)) ∧
      (∀ g h, g < p.n → h < p.n → star (aT p.nb (tEl p p.tT mem') g h) = aT p.nb (tEl p p.tT mem') h g) ∧
      (∀ i, i < p.n → i + 1 ≤ E.dec (mem' (.usr 4, i)) ∧ E.dec (mem' (.usr 4, i)) ≤ p.n) ∧ ∀ i, i < p.nb → E.dec (mem' (.usr 4, i)) = i + 1) ∧
    (st ≠ 0 → ∃ q : Nat, st = (q : Int) ∧ p.nb < q ∧ q ≤ p.n) := by
  have hnb := h.pos
  have hn := h.n
  have hS : AStart p.env E (p.cfg ib mpt mth) p.mats (view (eloc p.env) mem) := by
    refine ⟨?_, ?_, hd⟩
    · rintro ⟨x, m, l⟩ i j hxW -
      change x = Buf.til 5 at hxW
      subst hxW
      exact hw _
    · intro i hi _
      show E.dec (p.uP.el _ i 0) = _
      rw [HPar.uP_el h]
      exact hp i hi
  obtain ⟨h1, h2⟩ := aasen_exec h.wf (h.cfg hib hmpt) (show p.nb ≤ p.n by omega) (HPar.mats_ok h) (HPar.mats_fit h) hmag hdv hS hx
  refine ⟨fun h0 => ?_, h2⟩
  have hD := h1 h0
  have ep : ∀ i, p.uP.el (view (eloc p.env) mem') i 0 = mem' (.usr 4, i) := fun i => HPar.uP_el h mem' i
  have epv : pv E p.mats.P (view (eloc p.env) mem') = fun i => E.dec (mem' (.usr 4, i)) - 1 := by
    funext i
    show E.dec (p.uP.el (view (eloc p.env) mem') i 0) - 1 = _
    rw [ep]
  have eL : ∀ r g, r < p.n → g < p.n → Lf p.nb (tEl p p.tA mem') r g = aL p.nb (tEl p p.tA mem') r g := by
    intro r g hr hg
    unfold aL
    by_cases hrg : r ≤ g
    · have := hD.up r g hr hg hrg
      change Lf p.nb (tEl p p.tA mem') r g = _ at this
      rw [this]
      by_cases e : r = g
      · rw [if_pos e, if_pos e]
      · rw [if_neg e, if_neg e, if_pos (by omega)]
    · rw [if_neg (by omega)]
      unfold Lf
      by_cases hgb : g < p.nb
      · rw [if_pos hgb, if_neg (by omega), if_pos (by omega)]
      · have := Nat.div_mul_le_self g p.nb
        rw [if_neg hgb, if_neg (by omega), if_neg (by omega)]
  have eT : ∀ g h, g < p.n → h < p.n → triT p.nb (tEl p p.tT mem') g h = aT p.nb (tEl p p.tT mem') g h := by
    intro g h hg hh
    unfold aT
    by_cases hc : g ≤ h + p.nb ∧ h ≤ g + p.nb
    · rw [if_pos hc]
      unfold triT
      have e1 : g / p.nb ≤ h / p.nb + 1 := by
        rw [← Nat.add_div_right _ hnb]; exact Nat.div_le_div_right hc.1
      have e2 : h / p.nb ≤ g / p.nb + 1 := by
        rw [← Nat.add_div_right _ hnb]; exact Nat.div_le_div_right hc.2
      rw [if_pos ⟨e1, e2⟩]
    · rw [if_neg hc]; exact hD.band g h hg hh (show g + p.nb < h ∨ h + p.nb < g by omega)
  refine ⟨fun r c hr hc => ?_, fun g h hg hh => ?_, fun i hi => ?_, fun i hi => ?_⟩
  · have := hD.eq r c hr hc
    rw [epv] at this
    refine this.trans (sum_congr rfl fun g hg => sum_congr rfl fun h hh => ?_)
    rw [mem_range] at hg hh
    rw [← eL r g hr hg, ← eT g h hg hh, ← eL c h hc hh]
    rfl
  · rw [← eT g h hg hh, ← eT h g hh hg]
    exact hD.herm g h hg hh
  · have := hD.rng i hi
    change i + 1 ≤ E.dec (p.uP.el (view (eloc p.env) mem') i 0) ∧ E.dec (p.uP.el (view (eloc p.env) mem') i 0) ≤ p.n at this
    rwa [ep] at this
  · have := hD.fst i hi (show i < p.n by omega)
    change E.dec (p.uP.el (view (eloc p.env) mem') i 0) = i + 1 at this
    rwa [ep] at this

/-- `C78_aasen`: an execution of the factorization, order 5 with tiles of size 2. -/
example : ∃ mem' st, GExec (hvPar 2 5 1 5 5).env (pzhetrfAasen ratCode (fun x : ℚ => |x|) qdv (fun _ => false) ((hvPar 2 5 1 5 5).cfg 1 3 4) (hvPar 2 5 1 5 5).mats)
    (heInit ratCode (hvPar 2 5 1 5 5) fun _ => 1) mem' st := by
  have h : (hvPar 2 5 1 5 5).OK := ⟨by decide, by decide, by decide, by decide, by decide, by decide⟩
  have hg := aasen_good (E := ratCode) (mag := fun x : ℚ => |x|) (dv := qdv) (big := fun _ => false) (h.cfg (ib := 1) (mpt := 3) (mth := 4) (by decide) (by decide))
    (HPar.mats_ok h) (HPar.mats_fit h)
  exact GExec.existsI h.wf hg.loc hg.ins _

/-- The tile matrices after the conversions. -/
theorem hesv_start {p : HPar} (h : p.OK) {mem : Buf × Nat → α}
    (hd : ∀ i, i < p.n → star (mem (.usr 3, i + i * p.lda)) = mem (.usr 3, i + i * p.lda)) :
    AStart p.env E (p.cfg ib mpt mth) p.mats
      (texec (p.inA ++ pzpb2desc none p.uT p.tT ++ pzge2desc (α := α) p.uB p.tB) (view (eloc p.env) (heInit E p mem))) := by
  refine ⟨?_, ?_, ?_⟩
  · rintro ⟨x, m, l⟩ i j hxW hv
    change x = Buf.til 5 at hxW
    subst hxW
    rw [(conv_wr h).frame _ (by simp)]
    rfl
  · intro i hi _
    show E.dec (p.uP.el _ i 0) = _
    rw [conv_P h]
    show E.dec (if i < p.nb then E.enc (1 + i) else _) = _
    rw [if_pos (show i < p.nb from hi), E.dec_enc, Nat.add_comm]
  · intro i hi
    show star (p.tA.el _ i i) = p.tA.el _ i i
    rw [conv_A h _ hi (le_refl _), heInit_usr (Or.inl (by decide))]
    exact hd i hi

/-- `T` after the conversions. -/
theorem hesv_pad {p : HPar} (h : p.OK) {mem : Buf × Nat → α} (hT : TPad p.nb p.n p.ldt mem) :
    ∀ g h', g < p.n → h' < p.n → bTile none p.nb p.nb p.nb (g / p.nb) (h' / p.nb) →
      ¬ (g / p.nb ≤ h' / p.nb + 1 ∧ h' / p.nb ≤ g / p.nb + 1) →
      p.tT.el (texec (p.inA ++ pzpb2desc none p.uT p.tT ++ pzge2desc (α := α) p.uB p.tB) (view (eloc p.env) (heInit E p mem))) g h' = 0 := by
  have hnb := h.1
  intro g h' hgn hhn hB hne
  refine (conv_T h _ hgn hhn hB).trans ?_
  split
  · rename_i hin
    rw [heInit_usr (Or.inl (by decide))]
    refine hT g h' hgn hhn ?_ ?_
    · rw [HPar.bT_iff hnb] at hB; omega
    · have := HPar.bT_iff hnb |>.mp hB
      simp only [inB] at hin
      have d1 := divmod g p.nb
      have d2 := divmod h' p.nb
      have d3 : h' / p.nb = g / p.nb + 2 := by omega
      rw [d3] at hin
      omega
  · rfl

/-- The program in parts. -/
theorem hesv_prog {nb n nrhs lda ldb : Nat} (hnb : 0 < nb) (hn : nb < n) (hr : 0 < nrhs) (rg : Bool) :
    zhesv rg E mag dv big ib mpt mth (hvPar nb n nrhs lda ldb) =
      okT ((hvPar nb n nrhs lda ldb).inA ++ pzpb2desc none (hvPar nb n nrhs lda ldb).uT (hvPar nb n nrhs lda ldb).tT ++
        pzge2desc (hvPar nb n nrhs lda ldb).uB (hvPar nb n nrhs lda ldb).tB) ++
      (phG 1 (hetrfL rg E mag dv big ib mpt ((hvPar nb n nrhs lda ldb).cfg ib mpt mth) (hvPar nb n nrhs lda ldb).mats (hvPar nb n nrhs lda ldb).uQ) ++
        okT (hetrsL 1 rg E dv (hvPar nb n nrhs lda ldb).tA (hvPar nb n nrhs lda ldb).tT (hvPar nb n nrhs lda ldb).uP (hvPar nb n nrhs lda ldb).uQ
          (hvPar nb n nrhs lda ldb).tB)) ++
      okT ((pzdesc2ge (hvPar nb n nrhs lda ldb).tB (hvPar nb n nrhs lda ldb).uB).map
        (phT (6 + 2 * ((hvPar nb n nrhs lda ldb).tB.d.mt * (hvPar nb n nrhs lda ldb).tB.d.nt)))) := by
  unfold zhesv ompZhesv
  rw [if_neg (by show ¬ (n = 0 ∨ nrhs = 0); omega)]
  rfl

theorem mats_q {p : HPar} : p.uQ.id ≠ p.mats.A.id ∧ p.uQ.id ≠ p.mats.W.id ∧ p.uQ.id ≠ p.mats.P.id := by
  simp [HPar.mats, HPar.uQ, HPar.tA, HPar.tW, HPar.uP, TMat.full]

/-- The tasks are local, inside the arrays, and ordered. -/
theorem hesv_good {nb n nrhs lda ldb : Nat} (hnb : 0 < nb) (hn : nb < n) (hr : 0 < nrhs) (hlda : n ≤ lda) (hldb : n ≤ ldb)
    (hib : 0 < ib) (hmpt : 0 < mpt) {rg : Bool} (hrg : rg = true → n ≤ nb * 4) :
    GoodC (evalid (hvPar nb n nrhs lda ldb).env) (tasks (zhesv rg E mag dv big ib mpt mth (hvPar nb n nrhs lda ldb))) := by
  have h : (hvPar nb n nrhs lda ldb).OK := ⟨hnb, hn, hlda, le_refl _, hldb, le_refl _⟩
  have hRg := hetrsL_good (E := E) (dv := dv) (HPar.hsOK h) (HPar.hsFit h) hn 1 rg
  rw [hesv_prog hnb hn hr, tasks_append, tasks_append, tasks_append, tasks_okT, tasks_okT, tasks_okT, tasks_phG]
  exact hetrf_goodC (h.cfg hib hmpt) (HPar.mats_ok h) (HPar.mats_fit h) (HPar.gbFit h hib hmpt) (HPar.gb_sec h hrg) mats_q
    (conv_good h) conv_phase hRg.1 (fun t ht => ⟨(hRg.2 t ht).1, by have := (hRg.2 t ht).2; omega⟩)
    (good_phT (HPar.outB_good h)).toC phT_mem (by omega)

/-- Executions exist. -/
theorem hesv_exists {nb n nrhs lda ldb : Nat} (hnb : 0 < nb) (hn : nb < n) (hr : 0 < nrhs) (hlda : n ≤ lda) (hldb : n ≤ ldb)
    (hib : 0 < ib) (hmpt : 0 < mpt) {rg : Bool} (hrg : rg = true → n ≤ nb * 4) (mem : Buf × Nat → α) :
    ∃ mem' st, GExec (hvPar nb n nrhs lda ldb).env (zhesv rg E mag dv big ib mpt mth (hvPar nb n nrhs lda ldb)) mem mem' st := by
  have h : (hvPar nb n nrhs lda ldb).OK := ⟨hnb, hn, hlda, le_refl _, hldb, le_refl _⟩
  have hg := hesv_good (E := E) (mag := mag) (dv := dv) (big := big) (mth := mth) hnb hn hr hlda hldb hib hmpt hrg
  exact GExec.existsI h.wf hg.loc hg.ins mem

/-- Arrays for the examples: `A` has rows (0,3), (3,1), `B` is (6,5). -/
def hvEx : Buf × Nat → ℚ
  | (.usr 3, 1) => 3
  | (.usr 3, 3) => 1
  | (.usr 1, 0) => 6
  | (.usr 1, 1) => 5
  | _ => 0

/-- Arrays for the examples: `A` is the identity matrix of order 3. -/
def hvId : Buf × Nat → ℚ
  | (.usr 3, k) => if k % 4 = 0 then 1 else 0
  | _ => 0

/-- **C80.** Every execution of `plasma_zhesv` on a Hermitian matrix, with an array `T` that is cleared, returns 0 only if `A` is nonsingular, and
then `A*X = B`; otherwise the value is an index.  The interchanges are in range.  Only `B`, `ipiv` and `ipiv2` are written: the arrays `A`
and `T` do not get the factors. -/
theorem C80_hesv (hmag : IsMag mag) (hdv : IsDiv dv) {nb n nrhs lda ldb : Nat} (hnb : 0 < nb) (hn : nb < n) (hr : 0 < nrhs) (hlda : n ≤ lda) (hldb : n ≤ ldb)
    (hib : 0 < ib) (hmpt : 0 < mpt) {rg : Bool} (hrg : rg = true → n ≤ nb * 4) (mem mem' : Buf × Nat → α) (st : Int)
    (hd : ∀ i, i < n → star (mem (.usr 3, i + i * lda)) = mem (.usr 3, i + i * lda)) (hT : TPad nb n (4 * nb) mem)
    (hx : GExec (hvPar nb n nrhs lda ldb).env (zhesv rg E mag dv big ib mpt mth (hvPar nb n nrhs lda ldb))
      (heInit E (hvPar nb n nrhs lda ldb) mem) mem' st) :
    (st = 0 →
      (∀ i j, i < n → j < nrhs → ∑ l ∈ range n, hA lda mem i l * mem' (.usr 1, l + j * ldb) = mem (.usr 1, i + j * ldb)) ∧
      ColsIndep n n (hA lda mem) ∧
      (∀ i, i < n → i + 1 ≤ E.dec (mem' (.usr 4, i)) ∧ E.dec (mem' (.usr 4, i)) ≤ n) ∧
      (∀ i, i < n → i + 1 ≤ E.dec (mem' (.usr 2, i)) ∧ E.dec (mem' (.usr 2, i)) ≤ n)) ∧
    (st ≠ 0 → ∃ q : Nat, st = (q : Int) ∧ 1 ≤ q ∧ q ≤ n) ∧
    (∀ k x, (k = 1 → ∀ i j, i < n → j < nrhs → x ≠ i + j * ldb) → (k = 2 ∨ k = 4 → n ≤ x) → mem' (.usr k, x) = mem (.usr k, x)) := by
  set p := hvPar nb n nrhs lda ldb with hpdef
  have h : p.OK := ⟨hnb, hn, hlda, le_refl _, hldb, le_refl _⟩
  have hz : (p.cfg ib mpt mth).OK := h.cfg hib hmpt
  have hZ := HPar.mats_ok (ib := ib) (mpt := mpt) (mth := mth) h
  have hF := HPar.mats_fit (ib := ib) (mpt := mpt) (mth := mth) h
  have hg := HPar.gbFit h hib hmpt
  have hq : p.uQ.id ≠ p.mats.A.id ∧ p.uQ.id ≠ p.mats.W.id ∧ p.uQ.id ≠ p.mats.P.id := by
    exact mats_q
  obtain ⟨m0, hm0⟩ : ∃ m0, m0 = heInit E p mem := ⟨_, rfl⟩
  rw [← hm0] at hx
  have hu : ∀ k x, k ≠ 4 → m0 (.usr k, x) = mem (.usr k, x) := fun k x hk => by rw [hm0]; exact heInit_usr (Or.inl hk)
  obtain ⟨I, hI⟩ : ∃ I, I = p.inA ++ pzpb2desc none p.uT p.tT ++ pzge2desc (α := α) p.uB p.tB := ⟨_, rfl⟩
  obtain ⟨R, hR⟩ : ∃ R, R = hetrsL 1 rg E dv p.tA p.tT p.uP p.uQ p.tB := ⟨_, rfl⟩
  obtain ⟨q, hqd⟩ : ∃ q, q = 6 + 2 * (p.tB.d.mt * p.tB.d.nt) := ⟨_, rfl⟩
  obtain ⟨O, hO⟩ : ∃ O, O = (pzdesc2ge (α := α) p.tB p.uB).map (phT q) := ⟨_, rfl⟩
  obtain ⟨L, hL⟩ : ∃ L, L = hetrfL rg E mag dv big ib mpt (p.cfg ib mpt mth) p.mats p.uQ := ⟨_, rfl⟩
  have hprog : zhesv rg E mag dv big ib mpt mth p = okT I ++ (phG 1 L ++ okT R) ++ okT O := by
    unfold zhesv ompZhesv
    rw [if_neg (by show ¬ (n = 0 ∨ nrhs = 0); omega), ← hI, ← hqd, ← hO, hL, hR]
    rfl
  rw [hprog, hL] at hx
  have hRg := hetrsL_good (E := E) (dv := dv) (HPar.hsOK h) (HPar.hsFit h) (show p.nb < p.n from hn) 1 rg
  rw [← hR] at hRg
  obtain ⟨s, hs⟩ : ∃ s, s = texec I (view (eloc p.env) m0) := ⟨_, rfl⟩
  have hOp : ∀ t ∈ O, t.phase = q := by
    rw [hO]; exact phT_mem
  have hS : AStart p.env E (p.cfg ib mpt mth) p.mats s := by
    rw [hs, hI, hm0]; exact hesv_start h hd
  have hTz : ∀ g h', g < n → h' < n → bTile none nb nb nb (g / nb) (h' / nb) → ¬ (g / nb ≤ h' / nb + 1 ∧ h' / nb ≤ g / nb + 1) →
      p.tT.el s g h' = 0 := by
    rw [hs, hI, hm0]; exact hesv_pad h hT
  rw [hs] at hS hTz
  obtain ⟨m1, m2, m3, -⟩ := hetrf_core h.wf hz (show p.nb ≤ p.n from hn.le) hZ hF hg (HPar.gb_sec h hrg) hq hmag hdv (I := I) (R := R) (O := O) (p := q)
    (by rw [hI]; exact conv_good h) (by rw [hI]; exact conv_phase) hRg.1 (fun t ht => ⟨(hRg.2 t ht).1, by have := (hRg.2 t ht).2; omega⟩)
    (by rw [hO]; exact (good_phT (HPar.outB_good h)).toC) hOp (by omega) hS hTz hx
  rw [← hL] at m1 m2
  rw [← hs] at m2
  have hwO : Writes (fun t => t.1 = Buf.usr 1) O := by rw [hO]; exact writes_phT HPar.outB_wr
  have hwR : Writes (fun t => t.1 = Buf.til 1) R := by rw [hR]; exact hetrsL_writes (HPar.hsOK h)
  have hwL := hetrfL_writes (E := E) (mag := mag) (dv := dv) (big := big) hz hZ hg.ok rg
  rw [← hL] at hwL
  have hAe : ∀ r c, r < n → c < n → herm (p.tA.el s) r c = hA lda mem r c := by
    intro r c hr hc
    refine herm_hA (n := n) (fun r c hr hl => ?_) hr hc
    rw [hs, hI, conv_A h _ hr hl, hu _ _ (by decide)]; rfl
  refine ⟨fun h0 => ?_, fun h0 => m3 h0, ?_⟩
  · obtain ⟨hx', T0, hD⟩ := m2 h0
    obtain ⟨s2, hs2⟩ : ∃ s2, s2 = texec (tasks L) s := ⟨_, rfl⟩
    rw [← hs2] at hD
    have eP : ∀ X : TMat Buf, Fits p.env p.nb X → X.d.m = n → X.d.n = 1 → X.id ≠ .til 1 → X.id ≠ .usr 1 → ∀ i, i < n →
        X.el (view (eloc p.env) mem') i 0 = X.el s2 i 0 := by
      intro X hf hXm hXn h1 h2 i hi
      refine (Exec.elC h.wf m1 hx' hf (by omega) (by omega)).trans ?_
      rw [texec_append, gwr_el hwO (fun _ _ => h2), texec_append, texec_append, gwr_el hwR (fun _ _ => h1), texec_phT, ← hs, ← hs2]
    refine ⟨fun i j hi hj => ?_, ?_, fun i hi => ?_, fun i hi => ?_⟩
    · have hso := hD.solve hdv hnb (HPar.hsOK h) 1 rg hi hj
      have eB : p.tB.el s2 i j = mem (.usr 1, i + j * ldb) := by
        rw [hs2, gwr_el hwL (by simp [HPar.mats, HPar.tA, HPar.tT, HPar.tW, HPar.uP, HPar.uQ, HPar.tB, TMat.full, bandT]), hs, hI, conv_B h _ hi hj,
          hu _ _ (by decide)]
        rfl
      rw [eB] at hso
      rw [← hso]
      refine sum_congr rfl fun l hl => ?_
      have hl' : l < n := mem_range.mp hl
      show _ = herm (p.tA.el s) i l * _
      rw [hAe i l hi hl']
      congr 1
      refine (HPar.uB_el h mem' l j).symm.trans ?_
      refine (Exec.elC h.wf m1 hx' (HPar.fits_uB h) hl' hj).trans ?_
      rw [texec_append, hO, texec_phT, HPar.outB_el h _ hl' hj, texec_append, texec_append, texec_phT, ← hs, ← hs2, hR]
      rfl
    · have hi := hD.indep hdv hnb (HPar.hsOK h) hr
      intro x hx c hc
      refine hi x (fun r hr => ?_) c hc
      rw [← hx r hr]
      refine sum_congr rfl fun l hl => ?_
      rw [← hAe r l hr (mem_range.mp hl)]
      rfl
    · have := hD.rng i hi
      rw [← HPar.uP_el h mem' i, eP _ (HPar.fits_uP h) rfl rfl (by simp [HPar.uP, TMat.full]) (by simp [HPar.uP, TMat.full]) i hi]
      exact this
    · have := hD.lu.rng i hi
      unfold pv at this
      have h5 : p.uQ.el (view (eloc p.env) mem') i 0 = p.uQ.el s2 i 0 :=
        eP _ (HPar.fits_uQ h) rfl rfl (by simp [HPar.uQ, TMat.full]) (by simp [HPar.uQ, TMat.full]) i hi
      rw [HPar.uQ_el h] at h5
      rw [h5]
      change 1 ≤ E.dec (p.uQ.el s2 i 0) ∧ i ≤ E.dec (p.uQ.el s2 i 0) - 1 ∧ E.dec (p.uQ.el s2 i 0) - 1 < n at this
      omega
  · intro k x h1 h2
    have e0 : m0 (.usr k, x) = mem (.usr k, x) := by
      rw [hm0]
      refine heInit_usr ?_
      by_cases hk : k = 4
      · right; have := h2 (Or.inr hk); show nb ≤ x; omega
      · exact Or.inl hk
    rw [← e0]
    rw [← hL] at hx
    have e2 : tasks (okT I ++ (phG 1 L ++ okT R) ++ okT O) = I ++ ((tasks L).map (phT 1) ++ R) ++ O := by
      rw [tasks_append, tasks_append, tasks_append, tasks_okT, tasks_okT, tasks_okT, tasks_phG]
    apply hx.frame
    rw [e2]
    rintro t ht ⟨a, m, l⟩ i j hwr hel
    have ha : a = .usr k := congrArg Prod.fst hel
    subst ha
    have hel : (p.env (.usr k)).off m l i j = x := congrArg Prod.snd hel
    obtain ⟨hv1, -⟩ := m1.ins t ht _ _ _ (Or.inr hwr)
    have hk : k = 1 ∨ k = 2 ∨ k = 4 := by
      simp only [List.mem_append] at ht
      rcases ht with (ht | ht | ht) | ht
      · rw [hI] at ht
        rcases conv_wr h t ht _ _ _ hwr with h | h | h <;> cases h
      · rcases writes_phT hwL t ht _ _ _ hwr with h | h | h | h | h <;> cases h
        · exact Or.inr (Or.inr rfl)
        · exact Or.inr (Or.inl rfl)
      · cases hwR t ht _ _ _ hwr
      · cases hwO t ht _ _ _ hwr; exact Or.inl rfl
    have key : ∀ k', k' = 2 ∨ k' = 4 → k = k' → False := by
      intro k' hk' e
      subst e
      have hn' : n ≤ x := h2 hk'
      have hen : p.env (.usr k) = ⟨.lapack n, nb, nb, n, 1⟩ := by rcases hk' with rfl | rfl <;> rfl
      rw [hen] at hv1
      rw [MatEnv.off_lapack (l := n) (by rw [hen])] at hel
      rw [hen] at hel
      change TileOK nb nb n 1 m l i j at hv1
      rw [tileOK_iff] at hv1
      have h4 : m * nb + i + n * (l * nb + j) = x := hel
      rw [show l * nb + j = 0 by omega, Nat.mul_zero] at h4
      omega
    rcases hk with rfl | hk | hk
    · change TileOK nb nb n nrhs m l i j at hv1
      rw [tileOK_iff] at hv1
      refine h1 rfl (m * nb + i) (l * nb + j) hv1.2.1 hv1.2.2.2 ?_
      rw [← hel, MatEnv.off_lapack (l := ldb) rfl]
      show m * nb + i + ldb * (l * nb + j) = _
      ring
    · exact key 2 (Or.inl rfl) hk
    · exact key 4 (Or.inr rfl) hk

/-- The value is 0 exactly if `A` is nonsingular and no panel of Aasen's factorization is singular. -/
theorem hesv_zero (hmag : IsMag mag) (hdv : IsDiv dv) {nb n nrhs lda ldb : Nat} (hnb : 0 < nb) (hn : nb < n) (hr : 0 < nrhs) (hlda : n ≤ lda) (hldb : n ≤ ldb)
    (hib : 0 < ib) (hmpt : 0 < mpt) {rg : Bool} (hrg : rg = true → n ≤ nb * 4) {mem mem' : Buf × Nat → α} {st : Int}
    (hd : ∀ i, i < n → star (mem (.usr 3, i + i * lda)) = mem (.usr 3, i + i * lda)) (hT : TPad nb n (4 * nb) mem)
    (hx : GExec (hvPar nb n nrhs lda ldb).env (zhesv rg E mag dv big ib mpt mth (hvPar nb n nrhs lda ldb))
      (heInit E (hvPar nb n nrhs lda ldb) mem) mem' st) :
    ∃ (A1 : Nat → Nat → α) (piv : Nat → Nat) (tb : Nat → Nat → α), (∀ r c, r < n → c ≤ r → A1 r c = mem (.usr 3, r + c * lda)) ∧
      ((stepsA mag dv big ⟨n, nb, ib, mpt, mth⟩ (startA ⟨n, nb, ib, mpt, mth⟩ A1 piv tb) (⟨n, nb, ib, mpt, mth⟩ : AC).mt).st ≠ 0 → st ≠ 0) ∧
      (ColsIndep n n (hA lda mem) →
        (stepsA mag dv big ⟨n, nb, ib, mpt, mth⟩ (startA ⟨n, nb, ib, mpt, mth⟩ A1 piv tb) (⟨n, nb, ib, mpt, mth⟩ : AC).mt).st = 0 → st = 0) := by
  have h : (hvPar nb n nrhs lda ldb).OK := ⟨hnb, hn, hlda, le_refl _, hldb, le_refl _⟩
  rw [hesv_prog hnb hn hr] at hx
  obtain ⟨p, hp⟩ : ∃ p, p = hvPar nb n nrhs lda ldb := ⟨_, rfl⟩
  have en : p.n = n := by rw [hp]; rfl
  have eb : p.nb = nb := by rw [hp]; rfl
  have el : p.lda = lda := by rw [hp]; rfl
  have et : p.ldt = 4 * nb := by rw [hp]; rfl
  rw [← hp] at hx h
  rw [← en, ← el] at hd
  have hS := hesv_start (E := E) (ib := ib) (mpt := mpt) (mth := mth) h hd
  have hTz := hesv_pad (E := E) h (by rw [en, eb, et]; exact hT)
  have hRg := hetrsL_good (E := E) (dv := dv) (HPar.hsOK h) (HPar.hsFit h) (by rw [en, eb]; exact hn) 1 rg
  have hz : (p.cfg ib mpt mth).OK := h.cfg hib hmpt
  have hbN : (p.cfg ib mpt mth).b ≤ (p.cfg ib mpt mth).N := by show p.nb ≤ p.n; omega
  obtain ⟨-, -, -, m4⟩ := hetrf_core h.wf hz hbN (HPar.mats_ok h) (HPar.mats_fit h) (HPar.gbFit h hib hmpt)
    (HPar.gb_sec h (by rw [en, eb]; intro e; rw [hp]; exact hrg e)) mats_q hmag hdv (conv_good h) conv_phase hRg.1
    (fun t ht => ⟨(hRg.2 t ht).1, by have := (hRg.2 t ht).2; omega⟩)
    (good_phT (HPar.outB_good h)).toC phT_mem (by omega) hS hTz hx
  obtain ⟨A1, piv, tb, h1, h2⟩ := aasen_codes (mag := mag) (dv := dv) (big := big) hz hbN (HPar.mats_ok h) (HPar.mats_fit h) hmag hdv hS
  have ez : p.cfg ib mpt mth = ⟨n, nb, ib, mpt, mth⟩ := by rw [hp]; rfl
  refine ⟨A1, piv, tb, fun r c hr hc => ?_, ?_, ?_⟩
  · rw [h1 r c (by rw [ez]; exact hr) (by rw [ez]; exact Nat.lt_of_le_of_lt hc hr) (Nat.div_le_div_right hc)]
    show p.tA.el _ r c = _
    rw [conv_A h _ (by omega) hc, heInit_usr (Or.inl (by decide)), el]
  · rw [← ez]
    intro h3 h0
    refine h3 (h2.mp fun i => ?_)
    have h5 := m4.mp h0
    by_cases hi : i < (pzhetrfAasen E mag dv big (p.cfg ib mpt mth) p.mats).length
    · have := h5 i
      unfold hetrfL at this
      rwa [tcode_append_left _ _ _ hi] at this
    · exact tcode_len _ _ (by omega)
  · rw [← ez]
    intro hI h3
    refine m4.mpr (hetrf_codes hz hbN (HPar.mats_ok h) (HPar.mats_fit h) (HPar.gbFit h hib hmpt).ok hmag hdv hS hTz ?_ (h2.mpr h3))
    have hAe : ∀ r c, r < n → c < n → herm (p.tA.el (texec (p.inA ++ pzpb2desc none p.uT p.tT ++ pzge2desc (α := α) p.uB p.tB)
        (view (eloc p.env) (heInit E p mem)))) r c = hA lda mem r c := by
      intro r c hr hc
      refine herm_hA (n := n) (fun r c hr hl => ?_) hr hc
      rw [conv_A h _ (by omega) hl, heInit_usr (Or.inl (by decide)), el]
    rw [ez]
    intro x hx c hc
    refine hI x (fun r hr => ?_) c hc
    rw [← hx r hr]
    refine sum_congr rfl fun l hl => ?_
    rw [← hAe r l hr (mem_range.mp hl)]
    rfl

/-- **C79, refuted for the driver.** If all elements of `A` below the first `nb` rows are zero in the first `nb` columns then no execution of
`plasma_zhesv` returns 0, whatever the rest of `A` is. -/
theorem C79_hesv_refuted (hmag : IsMag mag) (hdv : IsDiv dv) {nb n nrhs lda ldb : Nat} (hnb : 0 < nb) (hn : nb < n) (hr : 0 < nrhs) (hlda : n ≤ lda) (hldb : n ≤ ldb)
    (hib : 0 < ib) (hmpt : 0 < mpt) {rg : Bool} (hrg : rg = true → n ≤ nb * 4) (mem mem' : Buf × Nat → α) (st : Int)
    (hd : ∀ i, i < n → star (mem (.usr 3, i + i * lda)) = mem (.usr 3, i + i * lda)) (hT : TPad nb n (4 * nb) mem)
    (h0 : ∀ r c, nb ≤ r → r < n → c < nb → mem (.usr 3, r + c * lda) = 0)
    (hx : GExec (hvPar nb n nrhs lda ldb).env (zhesv rg E mag dv big ib mpt mth (hvPar nb n nrhs lda ldb))
      (heInit E (hvPar nb n nrhs lda ldb) mem) mem' st) : st ≠ 0 := by
  obtain ⟨A1, piv, tb, h1, h2, -⟩ := hesv_zero hmag hdv hnb hn hr hlda hldb hib hmpt hrg hd hT hx
  refine h2 ?_
  rw [C79_decoupled_refuted (z := ⟨n, nb, ib, mpt, mth⟩) ⟨hnb, hib, hmpt⟩ hmag hdv hn (A := A1) (piv := piv) (tb := tb) (fun i hi => by rw [h1 i i hi (le_refl _)]; exact hd i hi)
    (fun r c a b d => by rw [h1 r c b (by have : c < nb := d; have : nb ≤ r := a; omega)]; exact h0 r c a b d)]
  exact Nat.succ_ne_zero _

/-- A matrix of order 2 with `A(1,0)` not zero, tiles of size 1: the value is 0 exactly if the matrix is nonsingular. -/
theorem hesv_two (hmag : IsMag mag) (hdv : IsDiv dv) {nrhs lda ldb : Nat} (hr : 0 < nrhs) (hlda : 2 ≤ lda) (hldb : 2 ≤ ldb)
    (hmpt : 0 < mpt) {rg : Bool} (mem mem' : Buf × Nat → α) (st : Int)
    (hd : ∀ i, i < 2 → star (mem (.usr 3, i + i * lda)) = mem (.usr 3, i + i * lda)) (h0 : mem (.usr 3, 1) ≠ 0)
    (hI : ColsIndep 2 2 (hA lda mem))
    (hx : GExec (hvPar 1 2 nrhs lda ldb).env (zhesv rg E mag dv big 1 mpt mth (hvPar 1 2 nrhs lda ldb))
      (heInit E (hvPar 1 2 nrhs lda ldb) mem) mem' st) : st = 0 := by
  obtain ⟨A1, piv, tb, h1, -, h2⟩ := hesv_zero hmag hdv Nat.one_pos (by omega) hr hlda hldb Nat.one_pos hmpt (fun _ => by omega) hd
    (fun r c hr hc h3 _ => by rw [Nat.div_one, Nat.div_one] at h3; omega) hx
  have hmt : (⟨2, 1, 1, mpt, mth⟩ : AC).mt = 2 := by unfold AC.mt; show ceilDiv 2 1 = 2; decide +kernel
  rw [hmt] at h2
  refine h2 hI (show (stepsA mag dv big ⟨2, 1, 1, mpt, mth⟩ (startA ⟨2, 1, 1, mpt, mth⟩ A1 piv tb) 2).st = 0 from aasen_two hmag hdv (A := A1) (fun i hi => by rw [h1 i i hi (le_refl _)]; exact hd i hi) ?_ piv hmpt tb)
  rw [h1 1 0 (by omega) (by omega)]
  simpa using h0

end

/-- The matrix with rows (0,3), (3,1) and the right-hand side (6,5): all executions of `plasma_zhesv` with one thread or more return 0, and
there is one.  It returns a solution. -/
example : ∃ mem', GExec (hvPar 1 2 1 2 2).env (zhesv true ratCode (fun x : ℚ => |x|) qdv (fun _ => false) 1 3 4 (hvPar 1 2 1 2 2))
      (heInit ratCode (hvPar 1 2 1 2 2) hvEx) mem' 0 ∧
    0 * mem' (.usr 1, 0) + 3 * mem' (.usr 1, 1) = 6 ∧ 3 * mem' (.usr 1, 0) + 1 * mem' (.usr 1, 1) = 5 := by
  obtain ⟨mem', st, hx⟩ := hesv_exists (E := ratCode) (mag := fun x : ℚ => |x|) (dv := qdv) (big := fun _ => false) (mth := 4)
    (nb := 1) (n := 2) (nrhs := 1) (lda := 2) (ldb := 2) (ib := 1) (mpt := 3) (by decide) (by decide) (by decide) (by decide) (by decide) (by decide)
    (by decide) (rg := true) (fun _ => by decide) (heInit ratCode (hvPar 1 2 1 2 2) hvEx)
  have hd : ∀ i, i < 2 → star (hvEx (.usr 3, i + i * 2)) = hvEx (.usr 3, i + i * 2) := fun i _ => rfl
  have hI : ColsIndep 2 2 (hA 2 hvEx) := by
    intro x hx c hc
    have e0 := hx 0 (by decide)
    have e1 := hx 1 (by decide)
    simp [sum_range_succ, hA, hvEx] at e0 e1
    have : c = 0 ∨ c = 1 := by omega
    rcases this with rfl | rfl
    · rw [e0] at e1; simpa using e1
    · exact e0
  have h0 := hesv_two (E := ratCode) qmag_ok qdv_isDiv (by decide) (by decide) (by decide) (by decide) hvEx mem' st hd (by norm_num [hvEx]) hI hx
  subst h0
  have h1 := (C80_hesv qmag_ok qdv_isDiv (by decide) (by decide) (by decide) (by decide) (by decide) (by decide) (by decide) (fun _ => by decide)
    hvEx mem' 0 hd (fun r c hr hc h3 _ => by rw [Nat.div_one, Nat.div_one] at h3; omega) hx).1 rfl
  have e0 := h1.1 0 0 (by decide) (by decide)
  have e1 := h1.1 1 0 (by decide) (by decide)
  simp [sum_range_succ, hA, hvEx] at e0 e1
  exact ⟨mem', hx, by linarith, by linarith⟩

/-- The identity matrix of order 3 with tiles of size 2: an execution exists, and it does not return 0. -/
example : ∃ mem' st, GExec (hvPar 2 3 1 3 3).env (zhesv true ratCode (fun x : ℚ => |x|) qdv (fun _ => false) 1 3 4 (hvPar 2 3 1 3 3))
      (heInit ratCode (hvPar 2 3 1 3 3) hvId) mem' st ∧ st ≠ 0 := by
  obtain ⟨mem', st, hx⟩ := hesv_exists (E := ratCode) (mag := fun x : ℚ => |x|) (dv := qdv) (big := fun _ => false) (mth := 4)
    (nb := 2) (n := 3) (nrhs := 1) (lda := 3) (ldb := 3) (ib := 1) (mpt := 3) (by decide) (by decide) (by decide) (by decide) (by decide) (by decide)
    (by decide) (rg := true) (fun _ => by decide) (heInit ratCode (hvPar 2 3 1 3 3) hvId)
  refine ⟨mem', st, hx, C79_hesv_refuted qmag_ok qdv_isDiv (by decide) (by decide) (by decide) (by decide) (by decide) (by decide) (by decide)
    (fun _ => by decide) hvId mem' st (fun i _ => rfl) (fun r c _ _ _ _ => rfl) (fun r c h1 h2 h3 => ?_) hx⟩
  show (if (r + c * 3) % 4 = 0 then (1 : ℚ) else 0) = 0
  exact if_neg (by omega)

end Verif.Props

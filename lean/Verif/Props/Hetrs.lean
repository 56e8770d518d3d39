/-
Properties of `plasma_zhetrf` and `plasma_zhetrs`: C81.
-/
import Verif.Props.Hesv

set_option linter.unusedSectionVars false

namespace Verif.Props

open Verif.Tile Verif.Layout Verif.LU Verif.Panel Verif.Heswp Verif.Aasen Finset

universe v w

section
variable {α : Type v} [Field α] [StarRing α] [DecidableEq α] {γ : Type w} [LinearOrder γ]
variable {E : IntCode α} {mag : α → γ} {dv : α → α → α} {big : α → Bool} {ib mpt mth : Nat}

/-- Parameters of `plasma_zhetrf` (compute/zhetrf.c:137-167): `q = ldt/nb` tile rows for `T`.  Simplification: `ldt` is a multiple of `nb`. -/
def htPar (nb n lda q : Nat) : HPar := ⟨nb, n, 0, lda, q * nb, n, q⟩

/-- Parameters of `plasma_zhetrs` (compute/zhetrs.c:130-162): four tile rows for `T`. -/
def hsPar (nb n nrhs lda ldt ldb : Nat) : HPar := ⟨nb, n, nrhs, lda, ldt, ldb, 4⟩

/-- Row interchange `i` of `ipiv`. -/
def hpv (E : IntCode α) (mem : Buf × Nat → α) (i : Nat) : Nat := E.dec (mem (.usr 4, i)) - 1

/-- The factors of `A0` in the user's arrays: `P*A0*P^H = L*T0*L^H` with `P` from `ipiv`, `L` in `pA`, `T0` Hermitian with bandwidth
`nb`, and the factors of `T0` in `pT` with interchanges in `ipiv2`. -/
structure HFac (E : IntCode α) (nb n lda ldt : Nat) (A0 : Nat → Nat → α) (mem : Buf × Nat → α) (T0 : Nat → Nat → α) : Prop where
  rng : ∀ i, i < n → i + 1 ≤ E.dec (mem (.usr 4, i)) ∧ E.dec (mem (.usr 4, i)) ≤ n
  fst : ∀ i, i < nb → E.dec (mem (.usr 4, i)) = i + 1
  eq : ∀ r c, r < n → c < n → A0 (perm (hpv E mem) 0 n r) (perm (hpv E mem) 0 n c) =
    ∑ g ∈ range n, ∑ h ∈ range n, aL nb (fun r c => mem (.usr 3, r + c * lda)) r g * T0 g h * star (aL nb (fun r c => mem (.usr 3, r + c * lda)) c h)
  herm : ∀ g h, g < n → h < n → star (T0 g h) = T0 h g
  band : ∀ g h, g + nb < h ∨ h + nb < g → T0 g h = 0
  lu : GbFac E nb nb nb ldt n T0 mem

/-- A matrix with these factors is nonsingular. -/
theorem HFac.indep {nb n lda ldt : Nat} (hnb : 0 < nb) {A0 T0 : Nat → Nat → α} {mem : Buf × Nat → α} (h : HFac E nb n lda ldt A0 mem T0) :
    ColsIndep n n A0 := by
  refine (indep_congr (π := perm (hpv E mem) 0 n) (fun i hi => ?_) h.eq fun r g _ _ hrg => ?_).mpr (h.lu.indep hnb)
  · refine (perm_range (m := n) (fun i _ hi => ?_) (Nat.zero_le i) hi).2
    have := h.rng i (by omega)
    unfold hpv; omega
  · unfold aL
    by_cases e : r = g
    · rw [if_pos e, if_pos e]
    · rw [if_neg e, if_neg e, if_pos (by omega)]

theorem htrf_out_wr {p : HPar} (h : p.OK) {q : Nat} :
    Writes (fun t => (∃ m n, t = p.uA.at' m n ∧ n ≤ m) ∨ t.1 = Buf.usr 0) ((p.outA ++ pzdesc2pb (α := α) none p.tT p.uT).map (phT q)) := by
  refine writes_phT (Writes.append ?_ ((HPar.outT_wr h).mono fun _ h => Or.inr h))
  refine (copyK_writes (HPar.sqA h)).mono ?_
  rintro t ⟨m, n, rfl, hs⟩
  exact Or.inl ⟨m, n, rfl, by simpa [stOK, inTri] using hs⟩

/-- The program in parts. -/
theorem htrf_prog {nb n lda q : Nat} (hn : 0 < n) (rg : Bool) :
    zhetrf rg E mag dv big ib mpt mth (htPar nb n lda q) =
      okT (htPar nb n lda q).inA ++
      (phG 1 (hetrfL rg E mag dv big ib mpt ((htPar nb n lda q).cfg ib mpt mth) (htPar nb n lda q).mats (htPar nb n lda q).uQ) ++ okT []) ++
      okT (((htPar nb n lda q).outA ++ pzdesc2pb none (htPar nb n lda q).tT (htPar nb n lda q).uT).map (phT 2)) := by
  unfold zhetrf ompZhetrf
  rw [if_neg (by show ¬ n = 0; omega)]
  rfl

theorem nil_good {V : Foot (Buf × Nat × Nat)} : GoodC V ([] : List (TTask (Buf × Nat × Nat) α)) :=
  ⟨by simp, by simp, fun i => by intro j t t' _ h; simp at h⟩

/-- **C81, factorization.** Every execution of `plasma_zhetrf` on a Hermitian matrix: if it returns 0 then the arrays hold the factors of `A`;
otherwise the value is an index. -/
theorem C81_hetrf (hmag : IsMag mag) (hdv : IsDiv dv) {nb n lda q : Nat} (hnb : 0 < nb) (hn : nb < n) (hlda : n ≤ lda) (hq : 4 ≤ q)
    (hib : 0 < ib) (hmpt : 0 < mpt) {rg : Bool} (hrg : rg = true → n ≤ nb * q) (mem mem' : Buf × Nat → α) (st : Int)
    (hd : ∀ i, i < n → star (mem (.usr 3, i + i * lda)) = mem (.usr 3, i + i * lda))
    (hx : GExec (htPar nb n lda q).env (zhetrf rg E mag dv big ib mpt mth (htPar nb n lda q)) (heInit E (htPar nb n lda q) mem) mem' st) :
    (st = 0 → ∃ T0, HFac E nb n lda (q * nb) (hA lda mem) mem' T0) ∧
    (st ≠ 0 → ∃ k : Nat, st = (k : Int) ∧ 1 ≤ k ∧ k ≤ n) ∧
    (∀ k x, (k = 3 → ∀ r c, r < n → c < n → c / nb ≤ r / nb → x ≠ r + c * lda) →
      (k = 0 → ∀ r c, r < n → c < n → c ≤ r + 2 * nb → r < c + 2 * nb → x ≠ 2 * nb + r + c * (q * nb) - c) →
      (k = 2 ∨ k = 4 → n ≤ x) → mem' (.usr k, x) = mem (.usr k, x)) := by
  rw [htrf_prog (by omega)] at hx
  obtain ⟨p, hp⟩ : ∃ p, p = htPar nb n lda q := ⟨_, rfl⟩
  have h : p.OK := by rw [hp]; exact ⟨hnb, hn, hlda, Nat.mul_le_mul_right _ hq, le_refl _, hq⟩
  have en : p.n = n := by rw [hp]; rfl
  have eb : p.nb = nb := by rw [hp]; rfl
  have el : p.lda = lda := by rw [hp]; rfl
  have et : p.ldt = q * nb := by rw [hp]; rfl
  have em : p.lmt = q := by rw [hp]; rfl
  rw [← hp] at hx
  subst en eb el em
  clear hp
  have hz : (p.cfg ib mpt mth).OK := h.cfg hib hmpt
  have hbN : (p.cfg ib mpt mth).b ≤ (p.cfg ib mpt mth).N := by show p.nb ≤ p.n; omega
  obtain ⟨m0, hm0⟩ : ∃ m0, m0 = heInit E p mem := ⟨_, rfl⟩
  rw [← hm0] at hx
  have hu : ∀ k x, k ≠ 4 → m0 (.usr k, x) = mem (.usr k, x) := fun k x hk => by rw [hm0]; exact heInit_usr (Or.inl hk)
  obtain ⟨s, hs⟩ : ∃ s, s = texec p.inA (view (eloc p.env) m0) := ⟨_, rfl⟩
  have hAs : ∀ r c, r < p.n → c ≤ r → p.tA.el s r c = mem (.usr 3, r + c * p.lda) := by
    intro r c hr hc
    rw [hs, HPar.inA_el h _ hr (by omega) hc, HPar.uA_el h, hu _ _ (by decide)]
  have hS : AStart p.env E (p.cfg ib mpt mth) p.mats s := by
    refine ⟨?_, ?_, ?_⟩
    · rintro ⟨x, m, l⟩ i j hxW hv
      change x = Buf.til 5 at hxW
      subst hxW
      rw [hs, (HPar.inA_wr h).frame _ (by simp), hm0]
      rfl
    · intro i hi _
      show E.dec (p.uP.el s i 0) = _
      rw [hs, gwr_el (HPar.inA_wr h) (by simp [HPar.uP, TMat.full]), HPar.uP_el h, hm0]
      show E.dec (if i < p.nb then E.enc (1 + i) else _) = _
      rw [if_pos (show i < p.nb from hi), E.dec_enc, Nat.add_comm]
    · intro i hi
      show star (p.tA.el s i i) = p.tA.el s i i
      rw [hAs i i hi (le_refl _)]
      exact hd i hi
  have hTz : ∀ g h', g < p.n → h' < p.n → bTile none p.nb p.nb p.nb (g / p.nb) (h' / p.nb) →
      ¬ (g / p.nb ≤ h' / p.nb + 1 ∧ h' / p.nb ≤ g / p.nb + 1) → p.tT.el s g h' = 0 := by
    intro g h' _ _ _ _
    rw [hs, gwr_el (HPar.inA_wr h) (by simp [HPar.tT, bandT]), hm0]
    rfl
  rw [hs] at hS hTz
  have hgO : GoodC (evalid p.env) ((p.outA ++ pzdesc2pb (α := α) none p.tT p.uT).map (phT 2)) :=
    (good_phT ((HPar.outA_good h).append (HPar.outT_good h))).toC
  obtain ⟨m1, m2, m3, -⟩ := hetrf_core h.wf hz hbN (HPar.mats_ok h) (HPar.mats_fit h) (HPar.gbFit h hib hmpt)
    (HPar.gb_sec h hrg) mats_q hmag hdv (HPar.inA_good h).toC inA_phase nil_good (by simp) hgO phT_mem (by omega) hS hTz hx
  rw [← hs] at m2
  obtain ⟨L, hL⟩ : ∃ L, L = hetrfL rg E mag dv big ib mpt (p.cfg ib mpt mth) p.mats p.uQ := ⟨_, rfl⟩
  have hwL := hetrfL_writes (E := E) (mag := mag) (dv := dv) (big := big) hz (HPar.mats_ok h) (HPar.gbOK h hib hmpt) rg
  rw [← hL] at m1 m2 hx hwL
  have hwO := htrf_out_wr (α := α) h (q := 2)
  obtain ⟨O, hO⟩ : ∃ O, O = (p.outA ++ pzdesc2pb (α := α) none p.tT p.uT).map (phT 2) := ⟨_, rfl⟩
  rw [← hO] at m1 m2 hx hwO
  refine ⟨fun h0 => ?_, m3, ?_⟩
  · obtain ⟨hx', T0, hD⟩ := m2 h0
    obtain ⟨F, hF⟩ : ∃ F, F = texec (tasks L) s := ⟨_, rfl⟩
    rw [← hF] at hD
    have eF : texec (p.inA ++ ((tasks L).map (phT 1) ++ []) ++ O) (view (eloc p.env) m0) =
        texec (p.outA ++ pzdesc2pb (α := α) none p.tT p.uT) F := by
      rw [texec_append, texec_append, List.append_nil, texec_phT, ← hs, ← hF, hO, texec_phT]
    have eO : texec O F = texec (p.outA ++ pzdesc2pb (α := α) none p.tT p.uT) F := by rw [hO, texec_phT]
    have eX : ∀ X : TMat Buf, Fits p.env p.nb X → X.d.m = p.n → X.d.n = 1 → X.id ≠ .usr 3 → X.id ≠ .usr 0 → ∀ i, i < p.n →
        X.el (view (eloc p.env) mem') i 0 = X.el F i 0 := by
      intro X hf hXm hXn h1 h2 i hi
      refine (Exec.elC h.wf m1 hx' hf (by omega) (by omega)).trans ?_
      rw [eF, ← eO, gwr_el hwO]
      rintro m n (⟨a, b, e, -⟩ | e)
      · exact h1 (congrArg Prod.fst e)
      · exact h2 e
    have eP : ∀ i, i < p.n → mem' (.usr 4, i) = p.uP.el F i 0 := fun i hi => by
      rw [← HPar.uP_el h mem' i, eX _ (HPar.fits_uP h) rfl rfl (by simp [HPar.uP, TMat.full]) (by simp [HPar.uP, TMat.full]) i hi]
    have eQ : ∀ i, i < p.n → mem' (.usr 2, i) = p.uQ.el F i 0 := fun i hi => by
      rw [← HPar.uQ_el h mem' i, eX _ (HPar.fits_uQ h) rfl rfl (by simp [HPar.uQ, TMat.full]) (by simp [HPar.uQ, TMat.full]) i hi]
    have eA : ∀ r c, r < p.n → c ≤ r → mem' (.usr 3, r + c * p.lda) = p.tA.el F r c := by
      intro r c hr hc
      rw [← HPar.uA_el h mem' r c]
      refine (Exec.elC h.wf m1 hx' (HPar.fits_uA h) hr (show c < p.n by omega)).trans ?_
      rw [eF, texec_append, gwr_el (HPar.outT_wr h) (by simp [HPar.uA, TMat.full]), HPar.outA_el h _ hr (by omega) (Nat.div_le_div_right hc)]
    have eT : ∀ r c, r < p.n → c < p.n → gbU p.nb p.nb p.nb (p.lmt * p.nb) mem' r c = gbX p.nb p.nb p.nb p.tT F r c := by
      intro r c hr hc
      unfold gbU gbX
      by_cases ht : bTile none p.nb p.nb p.nb (r / p.nb) (c / p.nb)
      · rw [if_pos ht]
        by_cases hB : inB none p.nb p.nb p.nb (r / p.nb) (c / p.nb) r c
        · rw [if_pos ⟨ht, hB⟩, ← et, show p.nb + p.nb = 2 * p.nb by omega, ← HPar.uT_el h mem']
          have h1 := (Exec.correct h.wf m1.loc m1.ins m1.cov hx').1 (p.uT.at' (r / p.nb) (c / p.nb)) (r % p.nb) (c % p.nb)
            (HPar.vU h _ _ _ _ ht (mod_lt_tdim hnb hr) (mod_lt_tdim hnb hc) (by rw [divmod, divmod]; exact hB))
          have h2 : p.uT.el (view (eloc p.env) mem') r c = p.uT.el (texec (p.inA ++ ((tasks L).map (phT 1) ++ []) ++ O) (view (eloc p.env) m0)) r c := by
            unfold TMat.el
            rw [(HPar.al_uT h).mb, (HPar.al_uT h).nb]
            exact h1
          rw [h2, eF, texec_append, HPar.outT_el h _ hr hc ht, if_pos hB, gwr_el (HPar.outA_wr h) (by simp [HPar.tT, bandT])]
        · rw [if_neg fun h => hB h.2]
          exact (gbDone_trunc hnb (Or.inl fun r c h => hD.band r c (Or.symm h)) hD.lu hr hc ht hB).symm
      · rw [if_neg ht, if_neg fun h => ht h.1]
    have epv : ∀ i, i < p.n → hpv E mem' i = pv E p.uP F i := fun i hi => by unfold hpv pv; rw [eP i hi]
    have eqv : ∀ i, i < p.n → gpv E mem' i = pv E p.uQ F i := fun i hi => by unfold gpv pv; rw [eQ i hi]
    have eperm : perm (hpv E mem') 0 p.n = perm (pv E p.uP F) 0 p.n := perm_congr fun i _ hi => epv i (by omega)
    have hl := hD.isLf hnb
    have eL : ∀ r g, r < p.n → g < p.n → aL p.nb (fun r c => mem' (.usr 3, r + c * p.lda)) r g = Lf p.nb (p.tA.el F) r g := by
      intro r g hr hg
      unfold aL
      by_cases hrg : r ≤ g
      · have := hl.up r g hr hg hrg
        change Lf p.nb (p.tA.el F) r g = _ at this
        rw [this]
        by_cases e : r = g
        · rw [if_pos e, if_pos e]
        · rw [if_neg e, if_neg e, if_pos (by omega)]
      · rw [if_neg (by omega)]
        by_cases hgb : g < p.nb
        · have := hl.left r g hr hg hgb
          change Lf p.nb (p.tA.el F) r g = _ at this
          rw [this, if_pos (by omega), if_neg (by omega)]
        · have := hl.low r g hr (by show p.nb ≤ g; omega) (by omega)
          change Lf p.nb (p.tA.el F) r g = p.tA.el F r (g - p.nb) at this
          rw [this, if_neg (by omega)]
          exact eA r (g - p.nb) hr (by omega)
    have hAe : ∀ r c, r < p.n → c < p.n → herm (p.tA.el s) r c = hA p.lda mem r c := fun r c hr hc =>
      herm_hA (n := p.n) hAs hr hc
    have hpr : ∀ i, i < p.n → perm (pv E p.uP F) 0 p.n i < p.n := fun i hi => by
      refine (perm_range (m := p.n) (fun i _ hi => ?_) (Nat.zero_le i) hi).2
      have := hD.rng i (by show i < p.n; omega)
      change i + 1 ≤ E.dec (p.uP.el F i 0) ∧ E.dec (p.uP.el F i 0) ≤ p.n at this
      unfold pv; omega
    refine ⟨T0, fun i hi => ?_, fun i hi => ?_, fun r c hr hc => ?_, hD.herm, hD.band, ?_, ?_, ?_⟩
    · rw [eP i hi]; exact hD.rng i hi
    · rw [eP i (by omega)]; exact hD.fst i hi (show i < p.n by omega)
    · rw [eperm, ← hAe _ _ (hpr r hr) (hpr c hc)]
      refine (hD.eq r c hr hc).trans (sum_congr rfl fun g hg => sum_congr rfl fun h' hh => ?_)
      have hg : g < p.n := mem_range.mp hg
      have hh : h' < p.n := mem_range.mp hh
      rw [eL r g hr hg, eL c h' hc hh]
      rfl
    · intro i hi
      rw [eqv i hi, eQ i hi]; exact hD.lu.rng i hi
    · rw [perm_congr (q := pv E p.uQ F) fun i _ hi => eqv i (by omega), lazyM_congr eqv]
      refine hD.lu.inv.congr le_rfl fun r c hr hc => ?_
      have hr : r < p.n := hr
      have hc : c < p.n := hc
      have hrn : ∀ i, i < p.n → i ≤ pv E p.uQ F i ∧ pv E p.uQ F i < p.n := fun i hi => (hD.lu.rng i hi).2
      show lazyM (pv E p.uQ F) (lzi p.nb) p.n _ r c = lazyM (pv E p.uQ F) (lzi p.nb) p.n _ r c
      unfold lazyM
      rw [if_pos hc, if_pos hc]
      refine (eT _ _ ?_ hc).symm
      by_cases hle : lzi p.nb c ≤ p.n
      · by_cases hlr : lzi p.nb c ≤ r
        · exact (perm_range (fun i _ h2 => hrn i (by omega)) hlr hr).2
        · rw [perm_fix (fun i _ h2 => (hrn i (by omega)).1) (by omega)]; exact hr
      · rw [show p.n - lzi p.nb c = 0 by omega]; exact hr
    · intro c hc
      rw [eT c c hc hc]; exact hD.lu.dia c hc
  · intro k x h3 h0 h2
    have e0 : m0 (.usr k, x) = mem (.usr k, x) := by
      rw [hm0]
      refine heInit_usr ?_
      by_cases hk : k = 4
      · right; have := h2 (Or.inr hk); omega
      · exact Or.inl hk
    rw [← e0]
    have e2 : tasks (okT p.inA ++ (phG 1 L ++ okT []) ++ okT O) = p.inA ++ ((tasks L).map (phT 1) ++ []) ++ O := by
      rw [tasks_append, tasks_append, tasks_append, tasks_okT, tasks_okT, tasks_okT, tasks_phG]
    apply hx.frame
    rw [e2]
    rintro t ht ⟨a, m, l⟩ i j hwr hel
    have ha : a = .usr k := congrArg Prod.fst hel
    subst ha
    have hel : (p.env (.usr k)).off m l i j = x := congrArg Prod.snd hel
    obtain ⟨hv1, hv2⟩ := m1.ins t ht _ _ _ (Or.inr hwr)
    have key : k = 2 ∨ k = 4 → False := by
      intro hk'
      have hn' : p.n ≤ x := h2 hk'
      have hen : p.env (.usr k) = ⟨.lapack p.n, p.nb, p.nb, p.n, 1⟩ := by rcases hk' with rfl | rfl <;> rfl
      rw [hen] at hv1
      rw [MatEnv.off_lapack (l := p.n) (by rw [hen])] at hel
      rw [hen] at hel
      change TileOK p.nb p.nb p.n 1 m l i j at hv1
      rw [tileOK_iff] at hv1
      have h4 : m * p.nb + i + p.n * (l * p.nb + j) = x := hel
      rw [show l * p.nb + j = 0 by omega, Nat.mul_zero] at h4
      omega
    simp only [List.mem_append, List.not_mem_nil, or_false] at ht
    rcases ht with (ht | ht) | ht
    · cases HPar.inA_wr h t ht _ _ _ hwr
    · rcases writes_phT hwL t ht _ _ _ hwr with h | h | h | h | h <;> cases h
      · exact key (Or.inr rfl)
      · exact key (Or.inl rfl)
    · rcases hwO t ht _ _ _ hwr with ⟨m', l', e, hlm⟩ | e
      · have e' : p.uA.at' m' l' = (.usr 3, m', l') := by simp [HPar.uA, TMat.full, TMat.at', general]
        rw [e'] at e
        cases e
        change TileOK p.nb p.nb p.n p.n m l i j at hv1
        rw [tileOK_iff] at hv1
        obtain ⟨a1, a2, a3, a4⟩ := hv1
        refine h3 rfl (m * p.nb + i) (l * p.nb + j) a2 a4 ?_ ?_
        · rw [Nat.add_comm, Nat.add_mul_div_right _ _ hnb, Nat.div_eq_of_lt a3, Nat.add_comm (m * p.nb), Nat.add_mul_div_right _ _ hnb, Nat.div_eq_of_lt a1]
          omega
        · rw [← hel, MatEnv.off_lapack (l := p.lda) rfl]
          show m * p.nb + i + p.lda * (l * p.nb + j) = _
          ring
      · cases e
        change TileOK p.nb p.nb p.n p.n m l i j at hv1
        rw [tileOK_iff] at hv1
        obtain ⟨a1, a2, a3, a4⟩ := hv1
        have hv2 : l * p.nb + j ≤ 2 * p.nb + (m * p.nb + i) ∧ m * p.nb + i ≤ 2 * p.nb - 1 + (l * p.nb + j) := hv2
        refine h0 rfl (m * p.nb + i) (l * p.nb + j) a2 a4 (by omega) (by omega) ?_
        rw [← hel, ← et]
        rfl

/-- The tasks of `plasma_zhetrs` are local, inside the arrays, and ordered. -/
theorem hetrs_good {p : HPar} (h : p.OK) (rg : Bool) : GoodC (evalid p.env) (zhetrs (α := α) rg E dv p) := by
  have hRg := hetrsL_good (E := E) (dv := dv) (HPar.hsOK h) (HPar.hsFit h) h.n 1 rg
  unfold zhetrs
  split
  · rw [List.append_nil]
    refine GoodC.phases (conv_good h) (good_phT (HPar.outB_good h)).toC fun t ht t' ht' => ?_
    rw [conv_phase t ht, phT_mem t' ht']; omega
  · refine GoodC.phases (GoodC.phases (conv_good h) hRg.1 fun t ht t' ht' => ?_) (good_phT (HPar.outB_good h)).toC fun t ht t' ht' => ?_
    · rw [conv_phase t ht]; have := (hRg.2 t' ht').1; omega
    · rw [phT_mem t' ht']
      rcases List.mem_append.mp ht with ht | ht
      · rw [conv_phase t ht]; omega
      · have := (hRg.2 t ht).2; omega

/-- **C81, solve.** Every execution of `plasma_zhetrs` with the factors of `A0` in the arrays solves `A0*X = B`, and writes only `B`. -/
theorem C81_hetrs (hdv : IsDiv dv) {nb n nrhs lda ldt ldb : Nat} (hnb : 0 < nb) (hn : nb < n) (hlda : n ≤ lda) (hldt : 4 * nb ≤ ldt) (hldb : n ≤ ldb)
    (rg : Bool) {A0 T0 : Nat → Nat → α} (mem mem' : Buf × Nat → α) (hf : HFac E nb n lda ldt A0 mem T0)
    (hx : Exec (hsPar nb n nrhs lda ldt ldb).env (zhetrs rg E dv (hsPar nb n nrhs lda ldt ldb)) mem mem') :
    (∀ i j, i < n → j < nrhs → ∑ l ∈ range n, A0 i l * mem' (.usr 1, l + j * ldb) = mem (.usr 1, i + j * ldb)) ∧
    (∀ k x, (k = 1 → ∀ i j, i < n → j < nrhs → x ≠ i + j * ldb) → mem' (.usr k, x) = mem (.usr k, x)) := by
  obtain ⟨p, hp⟩ : ∃ p, p = hsPar nb n nrhs lda ldt ldb := ⟨_, rfl⟩
  have h : p.OK := by rw [hp]; exact ⟨hnb, hn, hlda, hldt, hldb, le_refl _⟩
  have en : p.n = n := by rw [hp]; rfl
  have eb : p.nb = nb := by rw [hp]; rfl
  have el : p.lda = lda := by rw [hp]; rfl
  have et : p.ldt = ldt := by rw [hp]; rfl
  have er : p.nrhs = nrhs := by rw [hp]; rfl
  have eB : p.ldb = ldb := by rw [hp]; rfl
  rw [← hp] at hx
  subst en eb el et er eB
  clear hp
  have hg := hetrs_good (E := E) (dv := dv) h rg
  constructor
  · intro i j hi hj
    unfold zhetrs at hx hg
    have hne : ¬ (p.tA.d.n = 0 ∨ p.tB.d.n = 0) := by show ¬ (p.n = 0 ∨ p.nrhs = 0); omega
    rw [if_neg hne] at hx hg
    obtain ⟨s, hs⟩ : ∃ s, s = texec (p.inA ++ pzpb2desc none p.uT p.tT ++ pzge2desc p.uB p.tB) (view (eloc p.env) mem) := ⟨_, rfl⟩
    have hA : ∀ r c, r < p.n → c ≤ r → p.tA.el s r c = mem (.usr 3, r + c * p.lda) := fun r c hr hc => by rw [hs, conv_A h _ hr hc]
    have hP : ∀ i, p.uP.el s i 0 = mem (.usr 4, i) := fun i => by rw [hs, conv_P h]
    have hQ : ∀ i, p.uQ.el s i 0 = mem (.usr 2, i) := fun i => by
      rw [hs, gwr_el (conv_wr h) (by simp [HPar.uQ, TMat.full]), HPar.uQ_el h]
    have epv : pv E p.uP s = hpv E mem := by funext i; unfold pv hpv; rw [hP i]
    have eqv : pv E p.uQ s = gpv E mem := by funext i; unfold pv gpv; rw [hQ i]
    have hX : ∀ r c, r < p.n → c < p.n → gbX p.nb p.nb p.nb p.tT s r c = gbU p.nb p.nb p.nb p.ldt mem r c := by
      intro r c hr hc
      unfold gbX gbU
      by_cases ht : bTile none p.nb p.nb p.nb (r / p.nb) (c / p.nb)
      · rw [if_pos ht, hs, conv_T h _ hr hc ht, show p.nb + p.nb = 2 * p.nb by omega]
        exact if_congr ⟨fun h => ⟨ht, h⟩, fun h => h.2⟩ rfl rfl
      · rw [if_neg ht, if_neg fun h => ht h.1]
    have key := hetrsL_el (X0 := A0) (T0 := T0) (L := aL p.nb fun r c => mem (.usr 3, r + c * p.lda)) hdv (HPar.hsOK h) 1 rg s
      (fun i hi => by
        have hi : i < p.n := hi
        have := hf.rng i hi
        show 1 ≤ E.dec (p.uP.el s i 0) ∧ E.dec (p.uP.el s i 0) ≤ p.n
        rw [hP]; omega)
      (fun i _ hi => by rw [epv]; unfold hpv; rw [hf.fst i hi]; rfl)
      ⟨fun r g _ _ hrg => by
          unfold aL
          by_cases e : r = g
          · rw [if_pos e, if_pos e]
          · rw [if_neg e, if_neg e, if_pos (by omega)],
        fun r g _ _ hgb => by
          unfold aL
          by_cases e : r = g
          · rw [if_pos e, if_pos e]
          · rw [if_neg e, if_neg e, if_pos (by omega)],
        fun r g hr hbg hgr => by
          unfold aL
          rw [if_neg (by omega), if_neg (by omega), hA r (g - p.nb) hr (by omega)]⟩
      (fun r c hr hc => by rw [epv]; exact hf.eq r c hr hc)
      (fun i hi => by rw [hQ, eqv]; exact hf.lu.rng i hi)
      (by
        rw [eqv]
        refine hf.lu.inv.congr le_rfl fun r c hr hc => ?_
        unfold lazyM
        rw [if_pos hc, if_pos hc]
        refine (hX _ _ ?_ hc).symm
        by_cases hle : lzi p.nb c ≤ p.n
        · by_cases hlr : lzi p.nb c ≤ r
          · exact (perm_range (fun i _ h2 => (hf.lu.rng i (by omega)).2) hlr hr).2
          · rw [perm_fix (fun i _ h2 => (hf.lu.rng i (by omega)).2.1) (by omega)]; exact hr
        · rw [show p.n - lzi p.nb c = 0 by omega]; exact hr)
      (fun c hc => by rw [hX c c hc hc]; exact hf.lu.dia c hc) hi hj
    rw [show p.tB.el s i j = mem (.usr 1, i + j * p.ldb) by rw [hs, conv_B h _ hi hj]] at key
    rw [← key]
    refine sum_congr rfl fun l hl => ?_
    have hl : l < p.n := mem_range.mp hl
    congr 1
    refine (HPar.uB_el h mem' l j).symm.trans ?_
    refine (Exec.elC h.wf hg hx (HPar.fits_uB h) hl hj).trans ?_
    rw [texec_append, texec_phT, HPar.outB_el h _ hl hj, texec_append, ← hs]
  · intro k x hk
    apply (Exec.correct h.wf hg.loc hg.ins hg.cov hx).2
    rintro u ht ⟨a, m, l⟩ i j hwr hel
    have ha : a = .usr k := congrArg Prod.fst hel
    subst ha
    have hel : (p.env (.usr k)).off m l i j = x := congrArg Prod.snd hel
    have hv := (hg.ins u ht _ _ _ (Or.inr hwr)).1
    have hk1 : k = 1 := by
      unfold zhetrs at ht
      rcases List.mem_append.mp ht with ht | ht
      · rcases List.mem_append.mp ht with ht | ht
        · rcases conv_wr h u ht _ _ _ hwr with h | h | h <;> cases h
        · split at ht
          · simp at ht
          · cases hetrsL_writes (HPar.hsOK h) u ht _ _ _ hwr
      · cases writes_phT HPar.outB_wr u ht _ _ _ hwr; rfl
    subst hk1
    change TileOK p.nb p.nb p.n p.nrhs m l i j at hv
    rw [tileOK_iff] at hv
    refine hk rfl (m * p.nb + i) (l * p.nb + j) hv.2.1 hv.2.2.2 ?_
    rw [← hel, MatEnv.off_lapack (l := p.ldb) rfl]
    show m * p.nb + i + p.ldb * (l * p.nb + j) = _
    ring

/-- The factors do not depend on the rest of the memory. -/
theorem HFac.congr {nb n lda ldt : Nat} (hn : nb < n) {A0 T0 : Nat → Nat → α} {mem mem2 : Buf × Nat → α} (h : HFac E nb n lda ldt A0 mem T0)
    (hm : ∀ k x, k ≠ 1 → mem2 (.usr k, x) = mem (.usr k, x)) : HFac E nb n lda ldt A0 mem2 T0 := by
  have e4 : ∀ x, mem2 (.usr 4, x) = mem (.usr 4, x) := fun x => hm 4 x (by decide)
  have e3 : ∀ x, mem2 (.usr 3, x) = mem (.usr 3, x) := fun x => hm 3 x (by decide)
  have e2 : ∀ x, mem2 (.usr 2, x) = mem (.usr 2, x) := fun x => hm 2 x (by decide)
  have e0 : ∀ x, mem2 (.usr 0, x) = mem (.usr 0, x) := fun x => hm 0 x (by decide)
  have ep : hpv E mem2 = hpv E mem := by funext i; unfold hpv; rw [e4]
  have eg : gpv E mem2 = gpv E mem := by funext i; unfold gpv; rw [e2]
  have eU : gbU nb nb nb ldt mem2 = gbU nb nb nb ldt mem := by funext r c; unfold gbU; rw [e0]
  refine ⟨fun i hi => by rw [e4]; exact h.rng i hi, fun i hi => by rw [e4]; exact h.fst i hi, ?_, h.herm, h.band, fun i hi => ?_, ?_, ?_⟩
  · rw [ep]; simp only [e3]; exact h.eq
  · rw [eg, e2]; exact h.lu.rng i hi
  · rw [eg, eU]; exact h.lu.inv
  · rw [eU]; exact h.lu.dia

/-- **C81.** `plasma_zhetrf` followed, with any right-hand sides, by `plasma_zhetrs`: if the factorization returns 0 then `A` is nonsingular
and `A*X = B`. -/
theorem C81_round_trip (hmag : IsMag mag) (hdv : IsDiv dv) {nb n nrhs lda ldb q : Nat} (hnb : 0 < nb) (hn : nb < n) (hlda : n ≤ lda) (hldb : n ≤ ldb)
    (hq : 4 ≤ q) (hib : 0 < ib) (hmpt : 0 < mpt) {rg rg' : Bool} (hrg : rg = true → n ≤ nb * q) (mem mem1 mem2 mem' : Buf × Nat → α)
    (hd : ∀ i, i < n → star (mem (.usr 3, i + i * lda)) = mem (.usr 3, i + i * lda))
    (hx1 : GExec (htPar nb n lda q).env (zhetrf rg E mag dv big ib mpt mth (htPar nb n lda q)) (heInit E (htPar nb n lda q) mem) mem1 0)
    (hm : ∀ k x, k ≠ 1 → mem2 (.usr k, x) = mem1 (.usr k, x))
    (hx2 : Exec (hsPar nb n nrhs lda (q * nb) ldb).env (zhetrs rg' E dv (hsPar nb n nrhs lda (q * nb) ldb)) mem2 mem') :
    ColsIndep n n (hA lda mem) ∧
    (∀ i j, i < n → j < nrhs → ∑ l ∈ range n, hA lda mem i l * mem' (.usr 1, l + j * ldb) = mem2 (.usr 1, i + j * ldb)) ∧
    (∀ k x, (k = 1 → ∀ i j, i < n → j < nrhs → x ≠ i + j * ldb) → mem' (.usr k, x) = mem2 (.usr k, x)) := by
  obtain ⟨T0, hf⟩ := (C81_hetrf hmag hdv hnb hn hlda hq hib hmpt hrg mem mem1 0 hd hx1).1 rfl
  exact ⟨hf.indep hnb, C81_hetrs hdv hnb hn hlda (Nat.mul_le_mul_right _ hq) hldb rg' mem2 mem' (hf.congr hn hm) hx2⟩

theorem htrf_start {p : HPar} (h : p.OK) {mem : Buf × Nat → α}
    (hd : ∀ i, i < p.n → star (mem (.usr 3, i + i * p.lda)) = mem (.usr 3, i + i * p.lda)) :
    AStart p.env E (p.cfg ib mpt mth) p.mats (texec p.inA (view (eloc p.env) (heInit E p mem))) := by
  refine ⟨?_, ?_, ?_⟩
  · rintro ⟨x, m, l⟩ i j hxW hv
    change x = Buf.til 5 at hxW
    subst hxW
    rw [(HPar.inA_wr h).frame _ (by simp)]
    rfl
  · intro i hi _
    show E.dec (p.uP.el (texec p.inA (view (eloc p.env) (heInit E p mem))) i 0) = _
    rw [gwr_el (HPar.inA_wr h) (by simp [HPar.uP, TMat.full]), HPar.uP_el h]
    show E.dec (if i < p.nb then E.enc (1 + i) else _) = _
    rw [if_pos (show i < p.nb from hi), E.dec_enc, Nat.add_comm]
  · intro i hi
    show star (p.tA.el (texec p.inA (view (eloc p.env) (heInit E p mem))) i i) = p.tA.el (texec p.inA (view (eloc p.env) (heInit E p mem))) i i
    rw [HPar.inA_el h _ hi hi (le_refl _), HPar.uA_el h, heInit_usr (Or.inl (by decide))]
    exact hd i hi

theorem htrf_pad {p : HPar} (h : p.OK) {mem : Buf × Nat → α} {g h' : Nat} :
    p.tT.el (texec p.inA (view (eloc p.env) (heInit E p mem))) g h' = 0 := by
  rw [gwr_el (HPar.inA_wr h) (by simp [HPar.tT, bandT])]
  rfl

/-- The tasks of `plasma_zhetrf` are local, inside the arrays, and ordered. -/
theorem hetrf_good {nb n lda q : Nat} (hnb : 0 < nb) (hn : nb < n) (hlda : n ≤ lda) (hq : 4 ≤ q)
    (hib : 0 < ib) (hmpt : 0 < mpt) {rg : Bool} (hrg : rg = true → n ≤ nb * q) :
    GoodC (evalid (htPar nb n lda q).env) (tasks (zhetrf rg E mag dv big ib mpt mth (htPar nb n lda q))) := by
  have h : (htPar nb n lda q).OK := ⟨hnb, hn, hlda, Nat.mul_le_mul_right _ hq, le_refl _, hq⟩
  rw [htrf_prog (by omega), tasks_append, tasks_append, tasks_append, tasks_okT, tasks_okT, tasks_okT, tasks_phG]
  exact hetrf_goodC (h.cfg hib hmpt) (HPar.mats_ok h) (HPar.mats_fit h) (HPar.gbFit h hib hmpt) (HPar.gb_sec h hrg) mats_q
    (HPar.inA_good h).toC inA_phase nil_good (by simp)
    (good_phT ((HPar.outA_good h).append (HPar.outT_good h))).toC phT_mem (by omega)

/-- Executions exist. -/
theorem hetrf_exists {nb n lda q : Nat} (hnb : 0 < nb) (hn : nb < n) (hlda : n ≤ lda) (hq : 4 ≤ q)
    (hib : 0 < ib) (hmpt : 0 < mpt) {rg : Bool} (hrg : rg = true → n ≤ nb * q) (mem : Buf × Nat → α) :
    ∃ mem' st, GExec (htPar nb n lda q).env (zhetrf rg E mag dv big ib mpt mth (htPar nb n lda q)) mem mem' st := by
  have h : (htPar nb n lda q).OK := ⟨hnb, hn, hlda, Nat.mul_le_mul_right _ hq, le_refl _, hq⟩
  have hg := hetrf_good (E := E) (mag := mag) (dv := dv) (big := big) (mth := mth) hnb hn hlda hq hib hmpt hrg
  exact GExec.existsI h.wf hg.loc hg.ins mem

/-- When `plasma_zhetrf` returns 0, in terms of the steps of the Aasen factorization. -/
theorem hetrf_zero (hmag : IsMag mag) (hdv : IsDiv dv) {nb n lda q : Nat} (hnb : 0 < nb) (hn : nb < n) (hlda : n ≤ lda) (hq : 4 ≤ q)
    (hib : 0 < ib) (hmpt : 0 < mpt) {rg : Bool} (hrg : rg = true → n ≤ nb * q) {mem mem' : Buf × Nat → α} {st : Int}
    (hd : ∀ i, i < n → star (mem (.usr 3, i + i * lda)) = mem (.usr 3, i + i * lda))
    (hx : GExec (htPar nb n lda q).env (zhetrf rg E mag dv big ib mpt mth (htPar nb n lda q)) (heInit E (htPar nb n lda q) mem) mem' st) :
    ∃ (A1 : Nat → Nat → α) (piv : Nat → Nat) (tb : Nat → Nat → α), (∀ r c, r < n → c ≤ r → A1 r c = mem (.usr 3, r + c * lda)) ∧
      ((stepsA mag dv big ⟨n, nb, ib, mpt, mth⟩ (startA ⟨n, nb, ib, mpt, mth⟩ A1 piv tb) (⟨n, nb, ib, mpt, mth⟩ : AC).mt).st ≠ 0 → st ≠ 0) ∧
      (ColsIndep n n (hA lda mem) →
        (stepsA mag dv big ⟨n, nb, ib, mpt, mth⟩ (startA ⟨n, nb, ib, mpt, mth⟩ A1 piv tb) (⟨n, nb, ib, mpt, mth⟩ : AC).mt).st = 0 → st = 0) := by
  have h : (htPar nb n lda q).OK := ⟨hnb, hn, hlda, Nat.mul_le_mul_right _ hq, le_refl _, hq⟩
  rw [htrf_prog (by omega)] at hx
  obtain ⟨p, hp⟩ : ∃ p, p = htPar nb n lda q := ⟨_, rfl⟩
  have en : p.n = n := by rw [hp]; rfl
  have eb : p.nb = nb := by rw [hp]; rfl
  have el : p.lda = lda := by rw [hp]; rfl
  have em : p.lmt = q := by rw [hp]; rfl
  rw [← hp] at hx h
  rw [← en, ← el] at hd
  have hS := htrf_start (E := E) (ib := ib) (mpt := mpt) (mth := mth) h hd
  have hz : (p.cfg ib mpt mth).OK := h.cfg hib hmpt
  have hbN : (p.cfg ib mpt mth).b ≤ (p.cfg ib mpt mth).N := by show p.nb ≤ p.n; omega
  obtain ⟨-, -, -, m4⟩ := hetrf_core h.wf hz hbN (HPar.mats_ok h) (HPar.mats_fit h) (HPar.gbFit h hib hmpt)
    (HPar.gb_sec h (by rw [en, eb, em]; exact hrg)) mats_q hmag hdv (HPar.inA_good h).toC inA_phase nil_good (by simp)
    (good_phT ((HPar.outA_good h).append (HPar.outT_good h))).toC phT_mem (by omega) hS (fun _ _ _ _ _ _ => htrf_pad h) hx
  obtain ⟨A1, piv, tb, h1, h2⟩ := aasen_codes (mag := mag) (dv := dv) (big := big) hz hbN (HPar.mats_ok h) (HPar.mats_fit h) hmag hdv hS
  have ez : p.cfg ib mpt mth = ⟨n, nb, ib, mpt, mth⟩ := by rw [hp]; rfl
  have hAs : ∀ r c, r < n → c ≤ r → p.tA.el (texec p.inA (view (eloc p.env) (heInit E p mem))) r c = mem (.usr 3, r + c * lda) := by
    intro r c hr hc
    rw [HPar.inA_el h _ (by omega) (by omega) hc, HPar.uA_el h, heInit_usr (Or.inl (by decide)), el]
  refine ⟨A1, piv, tb, fun r c hr hc => ?_, ?_, ?_⟩
  · rw [h1 r c (by rw [ez]; exact hr) (by rw [ez]; exact Nat.lt_of_le_of_lt hc hr) (Nat.div_le_div_right hc)]
    exact hAs r c hr hc
  · rw [← ez]
    intro h3 h0
    refine h3 (h2.mp fun i => ?_)
    have h5 := m4.mp h0
    by_cases hi : i < (pzhetrfAasen E mag dv big (p.cfg ib mpt mth) p.mats).length
    · have := h5 i
      unfold hetrfL at this
      rwa [tcode_append_left _ _ _ hi] at this
    · exact tcode_len _ _ (by omega)
  · rw [← ez]
    intro hI h3
    refine m4.mpr (hetrf_codes hz hbN (HPar.mats_ok h) (HPar.mats_fit h) (HPar.gbFit h hib hmpt).ok hmag hdv hS (fun _ _ _ _ _ _ => htrf_pad h) ?_ (h2.mpr h3))
    rw [ez]
    intro x hx c hc
    refine hI x (fun r hr => ?_) c hc
    rw [← hx r hr]
    refine sum_congr rfl fun l hl => ?_
    rw [← herm_hA (n := n) hAs hr (mem_range.mp hl)]
    rfl

/-- **C79, refuted for `plasma_zhetrf`.** If all elements of `A` below the first `nb` rows are zero in the first `nb` columns then no execution
returns 0, whatever the rest of `A` is. -/
theorem C79_hetrf_refuted (hmag : IsMag mag) (hdv : IsDiv dv) {nb n lda q : Nat} (hnb : 0 < nb) (hn : nb < n) (hlda : n ≤ lda) (hq : 4 ≤ q)
    (hib : 0 < ib) (hmpt : 0 < mpt) {rg : Bool} (hrg : rg = true → n ≤ nb * q) (mem mem' : Buf × Nat → α) (st : Int)
    (hd : ∀ i, i < n → star (mem (.usr 3, i + i * lda)) = mem (.usr 3, i + i * lda))
    (h0 : ∀ r c, nb ≤ r → r < n → c < nb → mem (.usr 3, r + c * lda) = 0)
    (hx : GExec (htPar nb n lda q).env (zhetrf rg E mag dv big ib mpt mth (htPar nb n lda q)) (heInit E (htPar nb n lda q) mem) mem' st) :
    st ≠ 0 := by
  obtain ⟨A1, piv, tb, h1, h2, -⟩ := hetrf_zero hmag hdv hnb hn hlda hq hib hmpt hrg hd hx
  refine h2 ?_
  rw [C79_decoupled_refuted (z := ⟨n, nb, ib, mpt, mth⟩) ⟨hnb, hib, hmpt⟩ hmag hdv hn (A := A1) (piv := piv) (tb := tb) (fun i hi => by rw [h1 i i hi (le_refl _)]; exact hd i hi)
    (fun r c a b d => by rw [h1 r c b (by have : c < nb := d; have : nb ≤ r := a; omega)]; exact h0 r c a b d)]
  exact Nat.succ_ne_zero _

/-- A matrix of order 2 with `A(1,0)` not zero, tiles of size 1: the value is 0 if the matrix is nonsingular. -/
theorem hetrf_two (hmag : IsMag mag) (hdv : IsDiv dv) {lda q : Nat} (hlda : 2 ≤ lda) (hq : 4 ≤ q)
    (hmpt : 0 < mpt) {rg : Bool} (mem mem' : Buf × Nat → α) (st : Int)
    (hd : ∀ i, i < 2 → star (mem (.usr 3, i + i * lda)) = mem (.usr 3, i + i * lda)) (h0 : mem (.usr 3, 1) ≠ 0)
    (hI : ColsIndep 2 2 (hA lda mem))
    (hx : GExec (htPar 1 2 lda q).env (zhetrf rg E mag dv big 1 mpt mth (htPar 1 2 lda q)) (heInit E (htPar 1 2 lda q) mem) mem' st) : st = 0 := by
  obtain ⟨A1, piv, tb, h1, -, h2⟩ := hetrf_zero hmag hdv Nat.one_pos (by omega) hlda hq Nat.one_pos hmpt (fun _ => by omega) hd hx
  have hmt : (⟨2, 1, 1, mpt, mth⟩ : AC).mt = 2 := by unfold AC.mt; show ceilDiv 2 1 = 2; decide +kernel
  rw [hmt] at h2
  refine h2 hI (show (stepsA mag dv big ⟨2, 1, 1, mpt, mth⟩ (startA ⟨2, 1, 1, mpt, mth⟩ A1 piv tb) 2).st = 0 from aasen_two hmag hdv (A := A1) (fun i hi => by rw [h1 i i hi (le_refl _)]; exact hd i hi) ?_ piv hmpt tb)
  rw [h1 1 0 (by omega) (by omega)]
  simpa using h0

end

/-- The matrix with rows (0,3), (3,1): `plasma_zhetrf` returns 0, and then `plasma_zhetrs` solves the system with the right-hand side (6,5). -/
example : ∃ mem1 mem', GExec (htPar 1 2 2 4).env (zhetrf true ratCode (fun x : ℚ => |x|) qdv (fun _ => false) 1 3 4 (htPar 1 2 2 4))
      (heInit ratCode (htPar 1 2 2 4) hvEx) mem1 0 ∧
    Exec (hsPar 1 2 1 2 4 2).env (zhetrs true ratCode qdv (hsPar 1 2 1 2 4 2)) mem1 mem' ∧
    0 * mem' (.usr 1, 0) + 3 * mem' (.usr 1, 1) = 6 ∧ 3 * mem' (.usr 1, 0) + 1 * mem' (.usr 1, 1) = 5 := by
  obtain ⟨mem1, st, hx⟩ := hetrf_exists (E := ratCode) (mag := fun x : ℚ => |x|) (dv := qdv) (big := fun _ => false) (mth := 4)
    (nb := 1) (n := 2) (lda := 2) (q := 4) (ib := 1) (mpt := 3) (by decide) (by decide) (by decide) (by decide) (by decide) (by decide)
    (rg := true) (fun _ => by decide) (heInit ratCode (htPar 1 2 2 4) hvEx)
  have hd : ∀ i, i < 2 → star (hvEx (.usr 3, i + i * 2)) = hvEx (.usr 3, i + i * 2) := fun i _ => rfl
  have hI : ColsIndep 2 2 (hA 2 hvEx) := by
    intro x hx c hc
    have e0 := hx 0 (by decide)
    have e1 := hx 1 (by decide)
    simp [sum_range_succ, hA, hvEx] at e0 e1
    have : c = 0 ∨ c = 1 := by omega
    rcases this with rfl | rfl
    · rw [e0] at e1; simpa using e1
    · exact e0
  have h0 := hetrf_two (E := ratCode) qmag_ok qdv_isDiv (by decide) (by decide) (by decide) hvEx mem1 st hd (by norm_num [hvEx]) hI hx
  subst h0
  have hok : (hsPar 1 2 1 2 4 2).OK := ⟨by decide, by decide, by decide, by decide, by decide, by decide⟩
  have hg := hetrs_good (E := ratCode) (dv := qdv) hok true
  obtain ⟨mem', hx2⟩ := Exec.exists hok.wf hg.loc hg.ins mem1
  have h1 := (C81_round_trip (mem1 := mem1) (mem2 := mem1) qmag_ok qdv_isDiv (by decide) (by decide) (by decide) (by decide) (by decide) (by decide) (by decide) (fun _ => by decide)
    hvEx mem' hd hx (fun _ _ _ => rfl) hx2).2.1
  have hf := (C81_hetrf qmag_ok qdv_isDiv (by decide) (by decide) (by decide) (by decide) (by decide) (by decide) (fun _ => by decide) hvEx mem1 0 hd hx).2.2
  have e0 := h1 0 0 (by decide) (by decide)
  have e1 := h1 1 0 (by decide) (by decide)
  rw [hf 1 _ (fun h => absurd h (by decide)) (fun h => absurd h (by decide)) (fun h => absurd h (by decide))] at e0 e1
  simp [sum_range_succ, hA, hvEx] at e0 e1
  exact ⟨mem1, mem', hx, hx2, by linarith, by linarith⟩

/-- The identity matrix of order 3 with tiles of size 2: an execution exists, and it does not return 0. -/
example : ∃ mem' st, GExec (htPar 2 3 3 4).env (zhetrf true ratCode (fun x : ℚ => |x|) qdv (fun _ => false) 1 3 4 (htPar 2 3 3 4))
      (heInit ratCode (htPar 2 3 3 4) hvId) mem' st ∧ st ≠ 0 := by
  obtain ⟨mem', st, hx⟩ := hetrf_exists (E := ratCode) (mag := fun x : ℚ => |x|) (dv := qdv) (big := fun _ => false) (mth := 4)
    (nb := 2) (n := 3) (lda := 3) (q := 4) (ib := 1) (mpt := 3) (by decide) (by decide) (by decide) (by decide) (by decide) (by decide)
    (rg := true) (fun _ => by decide) (heInit ratCode (htPar 2 3 3 4) hvId)
  refine ⟨mem', st, hx, C79_hetrf_refuted qmag_ok qdv_isDiv (by decide) (by decide) (by decide) (by decide) (by decide) (by decide)
    (fun _ => by decide) hvId mem' st (fun i _ => rfl) (fun r c h1 h2 h3 => ?_) hx⟩
  show (if (r + c * 3) % 4 = 0 then (1 : ℚ) else 0) = 0
  exact if_neg (by omega)

end Verif.Props

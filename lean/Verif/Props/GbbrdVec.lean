/-
Properties of the bulge chasing with vectors, compute/pzgbbrd_static.c with `wantz = 2`: C89.
-/
import Verif.BulgeVecExec
import Verif.Props.Bidiag

namespace Verif.Props

open Verif.Sched Verif.Tile Verif.Bulge Verif.Qr Matrix

universe v

section
variable {𝕜 : Type v} [RCLike 𝕜]

/-- Realisations of the kernels by sequences of memory accesses, `wantz = 2` and `Vblksiz = V`. -/
def ChaseImplV (up : Bool) (n nb V cores : Nat) (Ts : List (Task CM (CM × Nat) 𝕜)) : Prop :=
  List.Forall₂ (TaskImpl (chaseLocV up n nb V) id) (chaseProg 𝕜 id up n nb (allcores n nb cores)) Ts

/-- The parallel region (compute/pzgbbrd_static.c:101-178) turns memory `mem` into `mem'`: some realisation, some interleaving of the threads. -/
def ChaseExecV (up : Bool) (n nb V cores : Nat) (mem mem' : CM × Nat → 𝕜) : Prop :=
  ∃ Ts σ, ChaseImplV up n nb V cores Ts ∧ ChaseReach n nb cores Ts σ ∧ Done σ ∧ mem' = runSched Ts (traceOf n nb σ.hist) mem

/-- What `plasma_omp_zgesdd` provides: zeros next to the band inside the band array, and `VQ`, `VP` cleared (compute/zgesdd.c:462, 515-517, 547-549). -/
structure ChaseInV (up : Bool) (n nb : Nat) (mem : CM × Nat → 𝕜) : Prop where
  zero : ∀ r c, r < n → c < n → (if up then c ≤ r + 2 * nb ∧ r ≤ c + nb else r ≤ c + 2 * nb ∧ c ≤ r + nb) → ¬ BrdBand up nb r c →
    mem (.a, bandAddr up nb r c) = 0
  q : ∀ x, mem (.q, x) = 0
  p : ∀ x, mem (.p, x) = 0

/-- `Q2`: the product of the reflectors in `VQ`, `TAUQ`. -/
def q2 (n nb V : Nat) (mem : CM × Nat → 𝕜) : Matrix (Fin n) (Fin n) 𝕜 := Blg.bulgeQ n nb V (fun x => mem (.q, x)) fun x => mem (.tq, x)

/-- `P2`: the product of the reflectors in `VP`, `TAUP`. -/
def p2 (n nb V : Nat) (mem : CM × Nat → 𝕜) : Matrix (Fin n) (Fin n) 𝕜 := Blg.bulgeQ n nb V (fun x => mem (.p, x)) fun x => mem (.tp, x)

variable {up : Bool} {n nb V cores : Nat} {mem mem' : CM × Nat → 𝕜}

open Classical in
/-- Memory as elements, zero where there is no place. -/
noncomputable def cviewV (up : Bool) (n nb V : Nat) (mem : CM × Nat → 𝕜) : Store CM 𝕜 := fun x i j =>
  if chaseValidV up n nb x i j then mem (chaseLocV up n nb V x i j) else 0

theorem chaseV_result (hn : 2 ≤ n) (hnb : 0 < nb) (hV : 0 < V) (h : ChaseExecV up n nb V cores mem mem') :
    (∀ x i j, chaseValidV up n nb x i j → mem' (chaseLocV up n nb V x i j) = chaseSeq id up n nb (cviewV up n nb V mem) x i j) ∧
    ∀ l, (∀ x i j, chaseValidV up n nb x i j → chaseLocV up n nb V x i j ≠ l) → mem' l = mem l := by
  obtain ⟨Ts, σ, hI, hr, hd, rfl⟩ := h
  obtain ⟨h1, h2⟩ := chase_exec_gen (fun s s' e => by rw [show s = s' from e]) (chaseV_inj hnb hV) (fun _ hb _ _ _ h => footV_valid hn hnb hb h)
    hn hnb hI hr hd mem
  refine ⟨fun x i j hv => (h1 x i j hv).trans ?_, h2⟩
  exact chaseSeqV_agree hn hnb (fun x i j hv => by unfold cviewV; rw [if_pos hv]; rfl) x i j hv

/-- Executions exist. -/
theorem C89_exists (hn : 2 ≤ n) (hnb : 0 < nb) (hV : 0 < V) (mem : CM × Nat → 𝕜) : ∃ mem', ChaseExecV up n nb V cores mem mem' := by
  have hI : ChaseImplV up n nb V cores ((chaseProg 𝕜 id up n nb (allcores n nb cores)).map (atomicImpl (chaseLocV up n nb V) id)) := by
    unfold ChaseImplV
    rw [List.forall₂_map_right_iff, List.forall₂_same]
    intro t ht
    obtain ⟨b, hb, rfl⟩ := List.mem_map.mp ht
    have hb := mem_blocks.mp hb
    refine atomicImpl_ok (chaseV_inj hnb hV) ?_ ?_
    · intro s s' h x i j hx
      exact (kern_within hn hnb hb).1 s s' (fun x i j hx => h x i j (Or.inl hx)) x i j hx
    · intro x i j hx
      exact footV_valid hn hnb hb (hx.elim id id)
  obtain ⟨σ, h1, h2⟩ := reach_done hn hnb (Relation.ReflTransGen.refl : Reach n nb (allcores n nb cores) (cntOf n nb _)
    (coreid nb (allcores n nb cores)) (start n nb (allcores n nb cores) (cntOf n nb _) (coreid nb (allcores n nb cores))))
  exact ⟨_, _, σ, hI, h1, h2, rfl⟩

/-- **C89, one result.** Executions of any two teams leave the same band, the same reflectors and the same scalars. -/
theorem C89_threads {cores' : Nat} (hn : 2 ≤ n) (hnb : 0 < nb) (hV : 0 < V) {mem'' : CM × Nat → 𝕜}
    (h : ChaseExecV up n nb V cores mem mem') (h' : ChaseExecV up n nb V cores' mem mem'') : mem' = mem'' := by
  obtain ⟨h1, h2⟩ := chaseV_result hn hnb hV h
  obtain ⟨h3, h4⟩ := chaseV_result hn hnb hV h'
  funext l
  by_cases hl : ∃ x i j, chaseValidV up n nb x i j ∧ chaseLocV up n nb V x i j = l
  · obtain ⟨x, i, j, hv, rfl⟩ := hl
    rw [h1 x i j hv, h3 x i j hv]
  · have : ∀ x i j, chaseValidV up n nb x i j → chaseLocV up n nb V x i j ≠ l := fun x i j hv e => hl ⟨x, i, j, hv, e⟩
    rw [h2 l this, h4 l this]

/-- **C89, memory safety.** Every element that a kernel touches is inside of the arrays that `plasma_omp_zgesdd` allocates. -/
theorem C89_safe (hn : 2 ≤ n) (hnb : 0 < nb) (hV : 0 < V) {b : Blk} (hb : b ∈ enum n nb) {x : CM} {i j : Nat} (h : foot id up n nb b x i j) :
    (chaseLocV up n nb V x i j).1 = x ∧ (chaseLocV up n nb V x i j).2 < sizeV n nb V x := by
  have hv := footV_valid hn hnb (((enum_spec hn hnb).1 b).mp hb) h
  refine ⟨?_, chaseV_bound hnb hV hv⟩
  cases x <;> first | rfl | exact hv.elim

/-- **C89, the stored reflectors are the factors.** Every execution of the bulge chasing with vectors, by any number of threads, turns the band matrix into `B` with
`A = Q2·B·P2ᴴ`, where `Q2` and `P2` are the products, sweep by sweep, of the reflectors that it leaves in `VQ`, `TAUQ` and `VP`, `TAUP`; both are unitary.
`B` has the main diagonal and one more; its entries are real except possibly the first one, which is not changed. -/
theorem C89_factors (hn : 2 ≤ n) (hnb : 2 ≤ nb) (hV : 0 < V) (hin : ChaseInV up n nb mem) (h : ChaseExecV up n nb V cores mem mem') :
    q2 n nb V mem' ∈ unitaryGroup (Fin n) 𝕜 ∧ p2 n nb V mem' ∈ unitaryGroup (Fin n) 𝕜 ∧
    bandOf up n nb mem = q2 n nb V mem' * (of fun r c : Fin n => if BrdBi up r c then mem' (.a, bandAddr up nb r c) else 0) * (p2 n nb V mem')ᴴ ∧
    (∀ r c, r < n → c < n → BrdBi up r c → (r, c) ≠ (0, 0) → star (mem' (.a, bandAddr up nb r c)) = mem' (.a, bandAddr up nb r c)) ∧
    mem' (.a, bandAddr up nb 0 0) = mem (.a, bandAddr up nb 0 0) ∧
    Blg.Stored n nb V (fun x => mem' (.q, x)) ∧ Blg.Stored n nb V fun x => mem' (.p, x) := by
  have hnb0 : 0 < nb := by omega
  obtain ⟨e1, e2⟩ := chaseV_result hn hnb0 hV h
  set S := cviewV up n nb V mem with hS
  set X := chaseSeq id up n nb S with hX
  have eA : ∀ r c, r < n → c < n → BrdBand up nb r c → mem' (.a, bandAddr up nb r c) = X .a r c :=
    fun r c hr hc hb => e1 .a r c (valid_band hb hr hc)
  have hz : ∀ r c, r < n → c < n → ¬ BrdBand up nb r c → S .a r c = 0 := by
    intro r c hr hc hb
    rw [hS]
    unfold cviewV
    split_ifs with hv
    · exact hin.zero r c hr hc hv.2.2 hb
    · rfl
  have hb0 : mat n n (S .a) = bandOf up n nb mem := by
    ext r c
    rw [mat_apply]
    unfold bandOf
    rw [of_apply]
    split_ifs with hb
    · rw [hS]
      unfold cviewV
      have hv : chaseValidV up n nb .a r c := valid_band hb r.2 c.2
      rw [if_pos hv]
      rfl
    · exact hz r c r.2 c.2 hb
  have main : (∀ r c, r < n → c < n → ¬ BrdBi up r c → X .a r c = 0) ∧
      (∀ r c, r < n → c < n → BrdBi up r c → (r, c) ≠ (0, 0) → star (X .a r c) = X .a r c) ∧ X .a 0 0 = S .a 0 0 ∧ Facs n nb S X (n - 1) := by
    rw [hX]
    clear_value S
    cases up
    · have hz' : ∀ r c, r < n → c < n → ¬ (c ≤ r ∧ r ≤ c + nb) → S .a r c = 0 := fun r c hr hc hb => hz r c hr hc (by unfold BrdBand; simpa using hb)
      obtain ⟨-, h2, h3, h4⟩ := chase_lower (sel := id) (S := S) hn hnb0 hz' (fun e => by omega)
      refine ⟨fun r c hr hc hb => h2 r c hr hc (by unfold BrdBi at hb; simpa using hb), fun r c hr hc hb hne => ?_, h4, vec_lower hn hnb hz'⟩
      unfold BrdBi at hb
      simp only [Bool.false_eq_true, if_false] at hb
      rcases hb with rfl | rfl
      · exact (h3 r (by by_contra h; exact hne (by simp; omega)) hr).1
      · exact (h3 (c + 1) (by omega) hr).2
    · have hz' : ∀ r c, r < n → c < n → ¬ (r ≤ c ∧ c ≤ r + nb) → S .a r c = 0 := fun r c hr hc hb => hz r c hr hc (by unfold BrdBand; simpa using hb)
      obtain ⟨-, h2, h3, h4⟩ := chase_upper (sel := id) (S := S) hn hnb0 hz' (fun e => by omega)
      refine ⟨fun r c hr hc hb => h2 r c hr hc (by unfold BrdBi at hb; simpa using hb), fun r c hr hc hb hne => ?_, h4, vec_upper hn hnb hz'⟩
      unfold BrdBi at hb
      simp only [if_true] at hb
      rcases hb with rfl | rfl
      · exact (h3 c (by by_contra h; exact hne (by simp; omega)) hr).1
      · exact (h3 (r + 1) (by omega) hc).2
  obtain ⟨m2, m3, m4, m5⟩ := main
  have h00 : BrdBi up 0 0 := by unfold BrdBi; cases up <;> simp
  have eq2 : allAt .q .tq n nb X (n - 1) = q2 n nb V mem' := allAt_bulgeQ hn hnb0 (fun h j g => e1 .q h j g) fun h j g => e1 .tq h j g
  have ep2 : allAt .p .tp n nb X (n - 1) = p2 n nb V mem' := allAt_bulgeQ hn hnb0 (fun h j g => e1 .p h j g) fun h j g => e1 .tp h j g
  have hone : ∀ s q, Blg.IsRefl n nb s q → ofRefl n nb (s + 1) (s + 1 + q * nb) ∧ vplace n nb V (s + 1) (s + 1 + q * nb) = Blg.vpos n nb V s (Blg.rst nb s q) ∧
      1 ≤ s + 1 ∧ s + 1 ≤ n - 1 ∧ q < cnt n nb (s + 1) := by
    intro s q hr
    obtain ⟨d1, d2⟩ := div_block (nb := nb) (s := s + 1) (q := q) (j := s + 1 + q * nb) le_rfl (by omega)
    have hs := hr.1
    have hlt : s + 1 + q * nb < n := by
      obtain ⟨h1, rfl | h2⟩ := hr <;> omega
    refine ⟨⟨by omega, by omega, hlt, by rw [d1]; exact hr⟩, ?_, by omega, by omega, (isRefl_cnt hn hnb0 hs).mp hr⟩
    unfold vplace
    rw [d1, d2, Nat.add_sub_cancel, Nat.sub_self, Nat.add_zero]
  have hfree : ∀ x, (∀ s q k, Blg.IsRefl n nb s q → k < nb → x ≠ Blg.vpos n nb V s (Blg.rst nb s q) + k) → ∀ i j, ofRefl n nb i j → vplace n nb V i j ≠ x := by
    intro x hx i j g e
    exact hx _ _ _ g.2.2.2 (Nat.mod_lt _ hnb0) e.symm
  refine ⟨eq2 ▸ m5.uq, ep2 ▸ m5.up, ?_, fun r c hr hc hb hne => ?_, ?_, ⟨fun s q hr => ?_, fun x hx => ?_⟩, ⟨fun s q hr => ?_, fun x hx => ?_⟩⟩
  · rw [← hb0, m5.fac, eq2, ep2]
    congr 2
    ext r c
    rw [mat_apply, of_apply]
    split_ifs with hb
    · exact (eA r c r.2 c.2 (bi_band hnb0 hb)).symm
    · exact m2 r c r.2 c.2 hb
  · rw [eA r c hr hc (bi_band hnb0 hb)]
    exact m3 r c hr hc hb hne
  · rw [eA 0 0 (by omega) (by omega) (bi_band hnb0 h00), m4, hS]
    unfold cviewV
    have hv : chaseValidV up n nb .a 0 0 := valid_band (bi_band hnb0 h00) (by omega) (by omega)
    rw [if_pos hv]
    rfl
  · obtain ⟨g1, g2, g3, g4, g5⟩ := hone s q hr
    rw [← g2]
    exact (e1 .q _ _ g1).trans (m5.oneq _ _ g3 g4 g5)
  · refine (e2 (.q, x) fun y i j hv e => ?_).trans (hin.q x)
    cases y <;> first
      | exact hfree x hx i j hv (congrArg Prod.snd e)
      | exact absurd (congrArg Prod.fst e) (by simp [chaseLocV])
  · obtain ⟨g1, g2, g3, g4, g5⟩ := hone s q hr
    rw [← g2]
    exact (e1 .p _ _ g1).trans (m5.onep _ _ g3 g4 g5)
  · refine (e2 (.p, x) fun y i j hv e => ?_).trans (hin.p x)
    cases y <;> first
      | exact hfree x hx i j hv (congrArg Prod.snd e)
      | exact absurd (congrArg Prod.fst e) (by simp [chaseLocV])

/-- **C89, `D` and `E`.** If the first diagonal element is real, as `plasma_pzge2gb` leaves it, `A = Q2·bidiag(D, E)·P2ᴴ`. -/
theorem C89_DE (hn : 2 ≤ n) (hnb : 2 ≤ nb) (hV : 0 < V) (hin : ChaseInV up n nb mem)
    (h0 : star (mem (.a, bandAddr up nb 0 0)) = mem (.a, bandAddr up nb 0 0)) (h : ChaseExecV up n nb V cores mem mem') :
    bandOf up n nb mem = q2 n nb V mem' * bidiag 𝕜 up n (brdD up nb mem') (brdE up nb mem') * (p2 n nb V mem')ᴴ := by
  obtain ⟨-, -, e, h1, h2, -⟩ := C89_factors hn hnb hV hin h
  rw [e]
  congr 2
  refine bidiag_eq fun r c hr hc hb => ?_
  by_cases hne : (r, c) = (0, 0)
  · obtain ⟨rfl, rfl⟩ := Prod.mk.injEq .. ▸ hne
    rw [h2, h0]
  · exact h1 r c hr hc hb hne

/-- **C89 with C87.** Let `plasma_pzgbbrd_static` with vectors have run and let `dbdsdc` return `bidiag(D, E) = Û·Σ·V̂ᴴ`.  When `plasma_pzlarft_blgtrd` and
`plasma_pzunmqr_blgtrd` have applied `VQ` to `Û` from the left and `VP` to `V̂ᴴ` from the right, the band matrix is `U·Σ·Vᴴ` with the matrices that they leave, and
these are unitary if `Û` and `V̂ᴴ` are. -/
theorem C89_svd (hn : 2 ≤ n) (hnb : 2 ≤ nb) (hV : 0 < V) (hin : ChaseInV up n nb mem)
    (h0 : star (mem (.a, bandAddr up nb 0 0)) = mem (.a, bandAddr up nb 0 0)) (h : ChaseExecV up n nb V cores mem mem')
    {U0 V0 U1 V1 : Nat → Nat → 𝕜} {Sg : Matrix (Fin n) (Fin n) 𝕜}
    (hsvd : bidiag 𝕜 up n (brdD up nb mem') (brdE up nb mem') = mat n n U0 * Sg * mat n n V0)
    {P1 P2 P3 P4 : Nat} (hP1 : 0 < P1) (hP2 : 0 < P2) (hP3 : 0 < P3) (hP4 : 0 < P4) {T0 T1 T2 T3 : Nat → 𝕜}
    (hq1 : Blg.LarftExec n nb V P1 (fun x => mem' (.q, x)) (fun x => mem' (.tq, x)) T0 T1)
    (hq2 : Blg.UnmExec true false n nb V n P2 (fun x => mem' (.q, x)) T1 U0 U1)
    (hp1 : Blg.LarftExec n nb V P3 (fun x => mem' (.p, x)) (fun x => mem' (.tp, x)) T2 T3)
    (hp2 : Blg.UnmExec false true n nb V n P4 (fun x => mem' (.p, x)) T3 V0 V1) :
    bandOf up n nb mem = mat n n U1 * Sg * mat n n V1 ∧
    (mat n n U0 ∈ unitaryGroup (Fin n) 𝕜 → mat n n U1 ∈ unitaryGroup (Fin n) 𝕜) ∧
    (mat n n V0 ∈ unitaryGroup (Fin n) 𝕜 → mat n n V1 ∈ unitaryGroup (Fin n) 𝕜) := by
  obtain ⟨uq, up', -, -, -, sq, sp⟩ := C89_factors hn hnb hV hin h
  have eU : mat n n U1 = q2 n nb V mem' * mat n n U0 := by
    ext r c
    rw [mat_apply, mul_apply]
    exact (C87_left hnb hV sq hP1 hP2 hq1 hq2).1 r c c.2
  have eV : mat n n V1 = mat n n V0 * (p2 n nb V mem')ᴴ := by
    ext r c
    rw [mat_apply, mul_apply]
    simp only [conjTranspose_apply]
    exact (C87_right hnb hV sp hP3 hP4 hp1 hp2).1 r c r.2
  refine ⟨?_, fun hu => eU ▸ mul_mem uq hu, fun hu => eV ▸ mul_mem hu (Unitary.star_mem up')⟩
  rw [C89_DE hn hnb hV hin h0 h, hsvd, eU, eV]
  simp only [Matrix.mul_assoc]

end

/-- A 9 by 9 band with `nb = 4`, three threads: a matrix with a one in the corner meets the hypotheses, executions exist, and two reflectors of the first sweep are
stored. -/
example : (∃ mem : CM × Nat → ℂ, ChaseInV true 9 4 mem ∧ bandOf true 9 4 mem ≠ 0 ∧ ∃ mem', ChaseExecV true 9 4 1 3 mem mem') ∧
    (Blg.refls 9 4).filter (fun a => a.1 = 0) = [(0, 0), (0, 1)] := by
  refine ⟨⟨fun l => if l = (.a, bandAddr true 4 0 0) then 1 else 0, ⟨?_, ?_, ?_⟩, ?_, C89_exists (by omega) (by omega) (by omega) _⟩, by decide +kernel⟩
  · intro r c hr hc hw hb
    have h00 : BrdBand true 4 0 0 := by unfold BrdBand; simp
    rw [if_neg]
    intro e
    have := chase_inj (up := true) (n := 9) (nb := 4) CM.a r c CM.a 0 0 ⟨hr, hc, hw⟩ (valid_band h00 (by omega) (by omega)) e
    rw [this.2.1, this.2.2] at hb
    exact hb h00
  · intro x; simp
  · intro x; simp
  · intro e
    have := congrFun (congrFun e 0) 0
    unfold bandOf at this
    simp [BrdBand] at this

/-- The hypotheses of `C89_svd`: with `Û = V̂ᴴ = 1` and any number of threads the calls can be executed. -/
example (mem' : CM × Nat → ℂ) : ∃ (U0 U1 V1 : Nat → Nat → ℂ) (T1 T3 : Nat → ℂ), mat 9 9 U0 ∈ unitaryGroup (Fin 9) ℂ ∧
    bidiag ℂ true 9 (brdD true 4 mem') (brdE true 4 mem') = mat 9 9 U0 * bidiag ℂ true 9 (brdD true 4 mem') (brdE true 4 mem') * mat 9 9 U0 ∧
    Blg.LarftExec 9 4 1 3 (fun x => mem' (.q, x)) (fun x => mem' (.tq, x)) (fun _ => 0) T1 ∧
    Blg.UnmExec true false 9 4 1 9 2 (fun x => mem' (.q, x)) T1 U0 U1 ∧
    Blg.LarftExec 9 4 1 2 (fun x => mem' (.p, x)) (fun x => mem' (.tp, x)) (fun _ => 0) T3 ∧
    Blg.UnmExec false true 9 4 1 9 5 (fun x => mem' (.p, x)) T3 U0 V1 := by
  obtain ⟨s1, h1⟩ := inter_exists 3 (Blg.larftProg 9 4 1 3)
  obtain ⟨s2, h2⟩ := inter_exists 2 (Blg.unmProg 9 4 1 9 2)
  obtain ⟨s3, h3⟩ := inter_exists 2 (Blg.larftProg 9 4 1 2)
  obtain ⟨s4, h4⟩ := inter_exists 5 (Blg.unmProg 9 4 1 9 5)
  have e : mat 9 9 (fun i j => if i = j then (1 : ℂ) else 0) = 1 := by
    ext r c
    rw [mat_apply, one_apply]
    simp only [Fin.ext_iff]
  refine ⟨fun i j => if i = j then 1 else 0, _, _, _, _, ?_, ?_, ⟨s1, h1, rfl⟩, ⟨s2, h2, rfl⟩, ⟨s3, h3, rfl⟩, ⟨s4, h4, rfl⟩⟩
  · rw [e]; exact one_mem _
  · rw [e, Matrix.one_mul, Matrix.mul_one]

end Verif.Props

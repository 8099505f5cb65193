import Verif.Props.C75
import Verif.Lemmas.S2Parity
import Verif.Props.C71

/-!
# C76: `to_s2grid` gives the values of the series of spherical harmonics at the points of the grid
-/

namespace E3nn.S2

open E3nn.IArr E3nn.SH

variable {ι : Type}

/-- There are spherical harmonics of every length. -/
theorem basis_exists (c : ℕ → ℝ) : ∃ B, IsBasis c B := by
  refine ⟨fun l x k => c l / sphLength .integral l * Y .integral l x k, fun l => ?_⟩
  have h := isSH_smul (Y_spec .integral l) (c l / sphLength .integral l)
  have hp : sphLength .integral l ≠ 0 := by unfold sphLength; positivity
  rwa [div_mul_cancel₀ _ hp] at h

theorem getLast_max {s : List ℕ} {L : ℕ} (h : s.Pairwise (· ≤ ·)) (hm : L ∈ s) (hle : ∀ l ∈ s, l ≤ L) : s.getLast? = some L := by
  rcases List.eq_nil_or_concat s with rfl | ⟨t, z, rfl⟩
  · cases hm
  · rw [List.concat_eq_append] at *
    rw [List.getLast?_append_of_ne_nil _ (by simp)]
    simp only [List.getLast?_singleton, Option.some.injEq]
    have hz := hle z (by simp)
    rcases List.mem_append.mp hm with h1 | h1
    · have := (List.pairwise_append.mp h).2.2 L h1 z (by simp)
      omega
    · exact (List.mem_singleton.mp h1).symm

theorem lt_l {a b : Irrep} (h : b.lt a = false) : a.l ≤ b.l := by
  by_contra hc
  have : b.lt a = true := by
    rw [Irrep.lt_iff_enc]
    unfold Irrep.enc
    split <;> split <;> omega
  rw [this] at h; cases h

/-- The regrouped coefficients. -/
theorem regroup_unit {c : IArr (ι → ℝ)} (hc : c.Coherent) :
    ∃ z, c.regroup = .ok z ∧ z.Coherent ∧ z.blocks.Perm c.blocks ∧ (expand z.irreps).Perm (expand c.irreps) ∧ (∀ m ∈ z.irreps, 0 < m.mul) ∧
      (expand z.irreps).Pairwise (fun a b => b.lt a = false) ∧ ((z.irreps.all fun m => m.mul == 1) = true ↔ (expand c.irreps).Nodup) := by
  obtain ⟨z, z1, z2, z3, z4, -, z6⟩ := C17_regroup c hc
  obtain ⟨g, g1, g2, g3, g4⟩ := C07_regroup_spec c.irreps
  rw [z6] at g1
  injection g1 with g1
  subst g1
  have hf : ∀ x : IArr (ι → ℝ), x.blocks.map Prod.fst = expand x.irreps := fun x => blocksOf_fst _ _
  have hperm : (expand z.irreps).Perm (expand c.irreps) := by rw [← hf, ← hf]; exact z3.map _
  refine ⟨z, z1, z2, z3, hperm, g3, by rw [← hf]; exact z4, ?_⟩
  rw [← hperm.nodup_iff, List.nodup_iff_count_le_one, List.all_eq_true]
  constructor
  · intro h ir
    have hz : ∀ m ∈ z.irreps, m.mul = 1 := fun m hm => by simpa using h m hm
    have he : expand z.irreps = z.irreps.map (·.ir) := by
      unfold expand
      rw [List.flatMap_congr (g := fun m => [m.ir]) (fun m hm => by rw [hz m hm]; rfl)]
      exact List.map_eq_flatMap.symm
    have hn : (z.irreps.map (·.ir)).Nodup := by
      unfold List.Nodup
      rw [List.pairwise_map]
      refine g2.imp ?_
      intro a b hab he
      rw [he, Irrep.lt_iff_enc] at hab
      omega
    rw [he]
    exact List.nodup_iff_count_le_one.mp hn ir
  · intro h m hm
    have h1 := h m.ir
    have h2 := g3 m hm
    have : m.mul ≤ (expand z.irreps).count m.ir := by
      obtain ⟨s, t, hst⟩ := List.append_of_mem hm
      rw [hst]
      unfold expand
      rw [List.flatMap_append, List.flatMap_cons, List.count_append, List.count_append, List.count_replicate]
      simp
      omega
    simp
    omega

theorem mem_terms {ms : Irreps} (hp : ∀ m ∈ ms, 0 < m.mul) (ir : Irrep) : ir ∈ ms.map (·.ir) ↔ ir ∈ expand ms := by
  constructor
  · intro h
    obtain ⟨m, hm, rfl⟩ := List.mem_map.mp h
    exact List.mem_flatMap.mpr ⟨m, hm, List.mem_replicate.mpr ⟨by have := hp m hm; omega, rfl⟩⟩
  · intro h
    unfold expand at h
    obtain ⟨m, hm, h⟩ := List.mem_flatMap.mp h
    exact List.mem_map.mpr ⟨m, hm, ((List.mem_replicate.mp h).2).symm⟩

theorem sphereParity_congr {s t : List Irrep} (h : ∀ ir, ir ∈ s ↔ ir ∈ t) (v a : Parity) : SphereParity s v a ↔ SphereParity t v a := by
  unfold SphereParity
  simp only [h]

theorem series_perm {B : (l : ℕ) → (Fin 3 → ℝ) → Fin (2 * l + 1) → ℝ} {bs bs' : List (Irrep × List (ι → ℝ))} (h : bs.Perm bs') (x : Fin 3 → ℝ) (i : ι) :
    series B bs x i = series B bs' x i := (h.map _).sum_eq

/-- How the parities are given: both, or none and then both even and odd degrees must be present. -/
def ParityGiven (s : List Irrep) (pVal pArg : Option Parity) (v a : Parity) : Prop :=
  (pVal = some v ∧ pArg = some a) ∨ (pVal = none ∧ pArg = none ∧ (∃ ir ∈ s, ir.l % 2 = 0) ∧ ∃ ir ∈ s, ir.l % 2 = 1)

theorem checks_ok {c z : IArr (ι → ℝ)} (h : (expand z.irreps).Perm (expand c.irreps)) (hpos : ∀ m ∈ z.irreps, 0 < m.mul)
    (hs : (expand z.irreps).Pairwise (fun a b => b.lt a = false)) (hone : (z.irreps.all fun m => m.mul == 1) = true) {L : ℕ} (hL : IsLmax (expand c.irreps) L)
    {pVal pArg : Option Parity} {v a : Parity} (hp : SphereParity (expand c.irreps) v a) (hg : ParityGiven (expand c.irreps) pVal pArg v a) :
    toGridChecks z pVal pArg = .ok (L, v, a) := by
  have hmem : ∀ ir, ir ∈ z.irreps.map (·.ir) ↔ ir ∈ expand c.irreps := fun ir => (mem_terms hpos ir).trans h.mem_iff
  have hlast : z.irreps.ls.getLast? = some L := by
    rw [ls_eq]
    refine getLast_max ?_ ?_ ?_
    · rw [List.pairwise_map]; exact hs.imp fun h => lt_l h
    · obtain ⟨ir, hir, rfl⟩ := hL.1
      exact List.mem_map.mpr ⟨ir, h.mem_iff.mpr hir, rfl⟩
    · intro l hl
      obtain ⟨ir, hir, rfl⟩ := List.mem_map.mp hl
      exact hL.2 ir (h.mem_iff.mp hir)
  unfold toGridChecks
  rw [hlast]
  simp only [hone]
  have hp' := (sphereParity_congr hmem v a).mpr hp
  rcases hg with ⟨rfl, rfl⟩ | ⟨rfl, rfl, ⟨i0, h0, l0⟩, ⟨i1, h1, l1⟩⟩
  · have := check_both z.irreps v a
    rw [if_pos hp'] at this
    simp [this]
  · have := (check_none z.irreps v a).mpr ⟨hp', ?_, ?_⟩
    · simp [this]
    · obtain ⟨m, hm, e⟩ := List.mem_map.mp ((hmem i0).mpr h0)
      exact ⟨m, hm, by rw [e]; exact l0⟩
    · obtain ⟨m, hm, e⟩ := List.mem_map.mp ((hmem i1).mpr h1)
      exact ⟨m, hm, by rw [e]; exact l1⟩

/-- **C76 (`to_s2grid`).** For coefficients of pairwise distinct irreps (in any order) whose parities are `p_val * p_arg ** l`, on every grid — `res_alpha` odd and
greater than twice the greatest degree when `fft` is used — the values of the signal are those of the series `Σ coefficient * basis function` at the vectors of the grid.
The basis functions are the spherical harmonics, with the lengths of the requested normalisation.  In particular `fft` does not change the values. -/
theorem C76_to_s2grid {lg : LegGauss} (hlg : GaussLegendre lg) (nrm : Normalization) (fft : Bool) {c : IArr (ι → ℝ)} (hc : c.Coherent) (hnd : (expand c.irreps).Nodup) {L : ℕ}
    (hL : IsLmax (expand c.irreps) L) {pVal pArg : Option Parity} {v a : Parity} (hp : SphereParity (expand c.irreps) v a) (hg : ParityGiven (expand c.irreps) pVal pArg v a)
    {rb : ℕ} (ra : ℕ) {q : Quad} {y w : Fin rb → ℝ} (hq : quadratureWeights lg q rb = .ok (y, w)) (hfft : fft = true → ra % 2 = 1 ∧ 2 * L + 1 ≤ ra)
    {B : (l : ℕ) → (Fin 3 → ℝ) → Fin (2 * l + 1) → ℝ} (hB : IsBasis (basisLength nrm L) B) :
    toS2Grid lg nrm fft c rb ra q pVal pArg = .ok ⟨rb, ra, fun b j i => series B c.blocks (gridVector (y b) (gridAlpha ra j)) i, q, v, a⟩ := by
  obtain ⟨z, z1, z2, z3, z4, z5, z6, z7⟩ := regroup_unit hc
  have hk := checks_ok z4 z5 z6 (z7.mpr hnd) hL hp hg
  have hcond : (fft && ra % 2 == 0) = false := by
    cases fft with
    | false => rfl
    | true => have := (hfft rfl).1; simp [this]
  unfold toS2Grid
  rw [z1]
  change (Except.bind (toGridChecks z pVal pArg) _ : Except PyErr _) = _
  rw [hk]
  change toGridCore lg nrm fft z L rb ra q v a = _
  unfold toGridCore
  rw [hq]
  simp only [bind, Except.bind, hcond, Bool.false_eq_true, if_false]
  congr 2
  funext b j i
  rw [← series_perm z3, ← Inv.array_eq_blocks z2.inv, ls_eq, ← blocksOf_fst (expand z.irreps) z.array, List.map_map]
  change synthesize fft L ra (signalB nrm L (z.blocks.map fun b => b.1.l) (y b) (z.blocks.map Prod.snd).flatten) j i = _
  refine synthesize_blocks nrm fft j.pos (fun h => by have := hfft h; omega) z.blocks ?_ ?_ ((exact_of_grid hlg b.pos hq).nodes b) j i hB
  · intro g hgm
    refine ⟨?_, ?_⟩
    · have := blocksOf_row_length (expand z.irreps) z.array z2.array_length g hgm
      rw [this]; rfl
    · apply hL.2 g.1
      rw [← z4.mem_iff, ← blocksOf_fst (expand z.irreps) z.array]
      exact List.mem_map.mpr ⟨g, hgm, rfl⟩
  · obtain ⟨ir, hir, rfl⟩ := hL.1
    rw [← z4.mem_iff, ← blocksOf_fst (expand z.irreps) z.array] at hir
    obtain ⟨g, hgm, rfl⟩ := List.mem_map.mp hir
    exact List.mem_map.mpr ⟨g, hgm, rfl⟩

/-- **C76 (refusals).** Coefficients without irreps are refused (`IndexError`); repeated irreps, only one of the two parities given, parities that are not
`p_val * p_arg ** l`, and parities that cannot be deduced are refused (`ValueError`); so are an even `res_alpha` with `fft`, and a grid that cannot be built. -/
theorem C76_refuse (lg : LegGauss) (nrm : Normalization) (fft : Bool) {c : IArr (ι → ℝ)} (hc : c.Coherent) (pVal pArg : Option Parity) (rb ra : ℕ) (q : Quad) :
    (expand c.irreps = [] → toS2Grid lg nrm fft c rb ra q pVal pArg = .error .indexError) ∧
    (expand c.irreps ≠ [] →
      (¬ (expand c.irreps).Nodup ∨ pVal.isSome ≠ pArg.isSome ∨ (¬ ∃ v a, SphereParity (expand c.irreps) v a ∧ ParityGiven (expand c.irreps) pVal pArg v a)) →
        toS2Grid lg nrm fft c rb ra q pVal pArg = .error .valueError) ∧
    (∀ v a, expand c.irreps ≠ [] → (expand c.irreps).Nodup → SphereParity (expand c.irreps) v a → ParityGiven (expand c.irreps) pVal pArg v a →
      (∀ e, quadratureWeights lg q rb = .error e → toS2Grid lg nrm fft c rb ra q pVal pArg = .error e) ∧
      (∀ g, quadratureWeights lg q rb = .ok g → fft = true → ra % 2 = 0 → toS2Grid lg nrm fft c rb ra q pVal pArg = .error .valueError)) := by
  obtain ⟨z, z1, z2, z3, z4, z5, z6, z7⟩ := regroup_unit hc
  have hmem : ∀ ir, ir ∈ z.irreps.map (·.ir) ↔ ir ∈ expand c.irreps := fun ir => (mem_terms z5 ir).trans z4.mem_iff
  have hlmax : expand c.irreps ≠ [] → ∃ L, IsLmax (expand c.irreps) L := by
    intro hne
    obtain ⟨L, hL⟩ : ∃ L, ((expand c.irreps).map Irrep.l).max? = some L := by
      cases h : ((expand c.irreps).map Irrep.l).max? with
      | none => rw [List.max?_eq_none_iff] at h; simp at h; exact absurd h hne
      | some L => exact ⟨L, rfl⟩
    rw [List.max?_eq_some_iff] at hL
    refine ⟨L, ?_, fun ir hir => hL.2 _ (List.mem_map.mpr ⟨ir, hir, rfl⟩)⟩
    obtain ⟨ir, hir, e⟩ := List.mem_map.mp hL.1
    exact ⟨ir, hir, e⟩
  have hred : ∀ r, toGridChecks z pVal pArg = r → toS2Grid lg nrm fft c rb ra q pVal pArg = Except.bind r fun k => toGridCore lg nrm fft z k.1 rb ra q k.2.1 k.2.2 := by
    rintro r rfl
    unfold toS2Grid
    rw [z1]; rfl
  refine ⟨?_, ?_, ?_⟩
  · intro he
    have : z.irreps.ls = [] := by rw [he] at z4; rw [ls_eq, List.perm_nil.mp z4]; rfl
    rw [hred (.error .indexError)]
    · rfl
    · unfold toGridChecks; rw [this]; rfl
  · intro hne hbad
    rw [hred (.error .valueError)]
    · rfl
    have hls : z.irreps.ls ≠ [] := by
      rw [ls_eq]
      intro h
      rw [List.map_eq_nil_iff] at h
      rw [h] at z4
      exact hne (List.nil_perm.mp z4)
    obtain ⟨L, hLe⟩ : ∃ L, z.irreps.ls.getLast? = some L := by
      cases h : z.irreps.ls.getLast? with
      | none => rw [List.getLast?_eq_none_iff] at h; exact absurd h hls
      | some L => exact ⟨L, rfl⟩
    unfold toGridChecks
    rw [hLe]
    by_cases hone : (z.irreps.all fun m => m.mul == 1) = true
    swap
    · simp [Bool.not_eq_true _ ▸ hone]
    by_cases hsome : pVal.isSome = pArg.isSome
    swap
    · simp [hone, hsome]
    have hno : ¬ ∃ v a, SphereParity (expand c.irreps) v a ∧ ParityGiven (expand c.irreps) pVal pArg v a := by
      rcases hbad with h | h | h
      · exact absurd (z7.mp hone) h
      · exact absurd hsome h
      · exact h
    simp only [hone, hsome]
    rcases pVal with _ | v <;> rcases pArg with _ | a <;> simp only [Option.isSome] at hsome
    · by_cases hex : ∃ v a, SphereParity (z.irreps.map (·.ir)) v a
      · cases hk : checkParities z.irreps none none with
        | error e =>
          have : e = .valueError := by
            revert hk
            unfold checkParities
            split
            · intro h; injection h with h; exact h.symm
            · dsimp only
              split <;> intro h <;> cases h
          simp [this]
        | ok r =>
          rcases r with ⟨_ | v, _ | a⟩
          · simp
          · simp
          · simp
          · exfalso
            obtain ⟨k1, ⟨m0, k2, k2'⟩, ⟨m1, k3, k3'⟩⟩ := (check_none z.irreps v a).mp hk
            apply hno
            refine ⟨v, a, (sphereParity_congr hmem v a).mp k1, .inr ⟨rfl, rfl, ?_, ?_⟩⟩
            · exact ⟨m0.ir, (hmem _).mp (List.mem_map.mpr ⟨m0, k2, rfl⟩), k2'⟩
            · exact ⟨m1.ir, (hmem _).mp (List.mem_map.mpr ⟨m1, k3, rfl⟩), k3'⟩
      · simp [check_none_err z.irreps hex]
    · cases hsome
    · cases hsome
    · have hk := check_both z.irreps v a
      rw [if_neg] at hk
      · simp [hk]
      · intro h
        exact hno ⟨v, a, (sphereParity_congr hmem v a).mp h, .inl ⟨rfl, rfl⟩⟩
  · intro v a hne hnd hp hg
    obtain ⟨L, hL⟩ := hlmax hne
    have hk := hred _ (checks_ok z4 z5 z6 (z7.mpr hnd) hL hp hg)
    refine ⟨fun e he => ?_, fun g hqe hf hr => ?_⟩
    · rw [hk]
      change toGridCore lg nrm fft z L rb ra q v a = _
      unfold toGridCore
      rw [he]; rfl
    · rw [hk]
      change toGridCore lg nrm fft z L rb ra q v a = _
      unfold toGridCore
      rw [hqe]
      simp [bind, Except.bind, hf, hr]

/-- The hypotheses of `C76_to_s2grid` are met: irreps `1o + 0e`, four points for `beta`, three for `alpha`. -/
example {lg : LegGauss} (hlg : GaussLegendre lg) :
    ∃ c : IArr (Unit → ℝ), c.Coherent ∧ c.irreps = [⟨1, ⟨1, .o⟩⟩, ⟨1, ⟨0, .e⟩⟩] ∧
      ∃ s, toS2Grid lg .component true c 4 3 .soft none none = .ok s ∧ s.pVal = .e ∧ s.pArg = .o := by
  obtain ⟨c, -, h2, h3, -, -, -⟩ := (C12_from_array [⟨1, ⟨1, .o⟩⟩, ⟨1, ⟨0, .e⟩⟩] [fun _ : Unit => (1 : ℝ), fun _ => 2, fun _ => 3, fun _ => 4]).1 (by decide)
  obtain ⟨B, hB⟩ := basis_exists (basisLength .component 1)
  have he : expand c.irreps = [⟨1, .o⟩, ⟨0, .e⟩] := by rw [h3]; rfl
  refine ⟨c, h2, h3, _, C76_to_s2grid hlg .component true h2 (L := 1) (v := .e) (a := .o) ?_ ?_ ?_ ?_ 3 (q := .soft) (y := fun i : Fin 4 => -Real.cos ((i + 0.5) / (4 : ℕ) * Real.pi)) (w := fun i : Fin 4 => softWeight 4 i / 2) ?_ (fun _ => by omega) hB, rfl, rfl⟩
  · rw [he]; decide
  · rw [he]; exact ⟨⟨_, List.mem_cons_self, rfl⟩, by simp⟩
  · rw [he]; intro ir hir; simp at hir; rcases hir with rfl | rfl <;> rfl
  · rw [he]; exact .inr ⟨rfl, rfl, ⟨_, List.mem_cons_of_mem _ (List.mem_singleton.mpr rfl), rfl⟩, ⟨_, List.mem_cons_self, rfl⟩⟩
  · unfold quadratureWeights; simp

/-- The condition on `res_alpha` is needed: with fewer than `2 lmax + 1` angles, `fft` drops the frequencies that do not fit, without an error.  Here with one angle
and the coefficient of the third component of `1o` only, `fft` gives zero instead of the value. -/
theorem C76_fft_witness {lg : LegGauss} (hlg : GaussLegendre lg) :
    ∃ c : IArr (Unit → ℝ), c.Coherent ∧ c.irreps = [⟨1, ⟨0, .e⟩⟩, ⟨1, ⟨1, .o⟩⟩] ∧ ∃ s t : Signal Unit,
      toS2Grid lg .integral true c 2 1 .soft none none = .ok s ∧ toS2Grid lg .integral false c 2 1 .soft none none = .ok t ∧ s ≠ t := by
  obtain ⟨c, -, h2, h3, h4, -, -⟩ := (C12_from_array [⟨1, ⟨0, .e⟩⟩, ⟨1, ⟨1, .o⟩⟩] [fun _ : Unit => (0 : ℝ), fun _ => 0, fun _ => 0, fun _ => 1]).1 (by decide)
  obtain ⟨B, hB⟩ := basis_exists (basisLength .integral 1)
  have he : expand c.irreps = [⟨0, .e⟩, ⟨1, .o⟩] := by rw [h3]; rfl
  have hnd : (expand c.irreps).Nodup := by rw [he]; decide
  have hL : IsLmax (expand c.irreps) 1 := by rw [he]; exact ⟨⟨_, List.mem_cons_of_mem _ (List.mem_singleton.mpr rfl), rfl⟩, by simp⟩
  have hp : SphereParity (expand c.irreps) .e .o := by rw [he]; intro ir hir; simp at hir; rcases hir with rfl | rfl <;> rfl
  have hgv : ParityGiven (expand c.irreps) none none .e .o := by rw [he]; exact .inr ⟨rfl, rfl, ⟨_, List.mem_cons_self, rfl⟩, ⟨_, List.mem_cons_of_mem _ (List.mem_singleton.mpr rfl), rfl⟩⟩
  have hq : quadratureWeights lg .soft 2 = .ok (fun i : Fin 2 => -Real.cos ((i + 0.5) / (2 : ℕ) * Real.pi), fun i : Fin 2 => softWeight 2 i / 2) := by unfold quadratureWeights; simp
  have ht := C76_to_s2grid hlg .integral false h2 hnd hL hp hgv 1 hq (fun h => by cases h) hB
  obtain ⟨z, z1, z2, z3, z4, z5, z6, z7⟩ := regroup_unit h2
  have hk := checks_ok z4 z5 z6 (z7.mpr hnd) hL hp hgv
  have hs : toS2Grid lg .integral true c 2 1 .soft none none = toGridCore lg .integral true z 1 2 1 .soft .e .o := by
    unfold toS2Grid
    rw [z1]
    change (Except.bind (toGridChecks z none none) _ : Except PyErr _) = _
    rw [hk]; rfl
  have hb : c.blocks = [(⟨0, .e⟩, [fun _ => 0]), (⟨1, .o⟩, [fun _ => 0, fun _ => 0, fun _ => 1])] := by
    unfold IArr.blocks; rw [he, h4]; rfl
  unfold toGridCore at hs
  rw [hq] at hs
  refine ⟨c, h2, h3, _, _, hs, ht, fun hst => ?_⟩
  have hv := congrArg (fun g : Signal Unit => if h : 0 < g.resBeta ∧ 0 < g.resAlpha then g.values ⟨0, h.1⟩ ⟨0, h.2⟩ () else 0) hst
  simp only at hv
  rw [dif_pos (by decide), dif_pos (by decide)] at hv
  let G : List (ℕ × List (Unit → ℝ)) := z.blocks.map fun b => (b.1.l, b.2)
  have hGp : G.Perm [(0, [fun _ => 0]), (1, [fun _ => 0, fun _ => 0, fun _ => 1])] := by
    have := z3.map (fun b => (b.1.l, b.2))
    rw [hb] at this
    exact this
  have g1 : G.map Prod.fst = z.irreps.ls := by rw [ls_eq, ← blocksOf_fst (expand z.irreps) z.array]; simp [G, IArr.blocks, Function.comp_def]
  have g2 : (G.map Prod.snd).flatten = z.array := by rw [← Inv.array_eq_blocks z2.inv]; simp [G, Function.comp_def]
  have hG : ∀ g ∈ G, g.2.length = 2 * g.1 + 1 ∧ g.1 ≤ 1 := by
    intro g hg
    have := hGp.mem_iff.mp hg
    simp at this
    rcases this with rfl | rfl <;> simp
  have hl : synthesize true 1 1 (signalB .integral 1 z.irreps.ls (-Real.cos ((((0 : Fin 2) : ℕ) + 0.5) / (2 : ℕ) * Real.pi)) z.array) ((0 : Fin 1) : ℕ) () = 0 := by
    unfold synthesize irfft irfftInput
    simp
    rw [← g1, ← g2, signalB_eq .integral G hG ((hGp.map _).mem_iff.mpr (by simp)), (hGp.map _).sum_eq]
    simp [InWin]
  replace hv := hl.symm.trans hv
  rw [hb] at hv
  simp [series, Fin.sum_univ_succ, basis_eq hB, Y_one, cst1, gridVector, gridAlpha, normTo] at hv
  have hpi := Real.pi_pos
  rcases hv with hv | hv
  · have : 0 < Real.sqrt Real.pi := by positivity
    linarith
  · have e : (0.5 / 2 * Real.pi : ℝ) = Real.pi / 4 := by ring
    rw [e, Real.cos_pi_div_four, div_pow, Real.sq_sqrt (by norm_num)] at hv
    norm_num at hv

end E3nn.S2

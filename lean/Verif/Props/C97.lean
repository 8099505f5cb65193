import Verif.Lemmas.RTPOptSpec
import Verif.Props.C96

/-!
# C97: `reduced_tensor_product_basis` with the optimized algorithm for symmetric powers (the default)
-/

namespace E3nn.RTP

open E3nn.IArr E3nn.LinAlg E3nn.PermRepr E3nn.Wig E3nn.Perm E3nn.IndexSymmetry

/-- All irreps are single: the optimized algorithm is not used. -/
def Single (irr : List Irreps) : Prop := ∀ x ∈ irr, x.numIrreps ≤ 1

theorem Single.sub {irr : List Irreps} (h : Single irr) {f : List ℕ} (hlt : ∀ i ∈ f, i < irr.length) : Single (f.map fun k => irr.getD k []) := by
  intro x hx
  obtain ⟨i, hi, rfl⟩ := List.mem_map.mp hx
  simp only [List.getD_eq_getElem _ _ (hlt i hi)]
  exact h _ (List.getElem_mem _)

theorem Single.not_optimized {irr : List Irreps} (h : Single irr) (flag : Bool) (G : Finset SPerm) : useOptimized flag irr G = false := by
  unfold useOptimized
  cases irr with
  | nil => simp
  | cons x irr =>
    have : ¬ 1 < x.numIrreps := by have := h x (by simp); omega
    simp [this]

theorem single_power {mi : MulIrrep} (h : mi.mul = 1) (n : ℕ) : Single (List.replicate n [mi]) := by
  intro x hx
  rw [List.eq_of_mem_replicate hx]
  simp [Irreps.numIrreps, h]

theorem getD_some_ok {o : Option (Except PyErr (IArr Ten))} {t : IArr Ten} (h : o.getD (.error .runtimeError) = .ok t) : o = some (.ok t) := by
  cases o with
  | none => cases h
  | some a => simp only [Option.getD_some] at h; rw [h]

theorem power_good {eigh : Eigh} {eps : ℝ} {mi : MulIrrep} (hm : mi.mul = 1) {n : ℕ} {keep : Option (List Irrep)} {t : IArr Ten} (h : power eigh eps mi n keep = .ok t) :
    Good (List.replicate n [mi]) (List.range n) t := by
  have h := getD_some_ok h
  have := basis_good (fun irr _ => Single irr) (fun irr G f hs _ hlt => hs.sub hlt) (fun irr G keep y hs hu => by rw [hs.not_optimized] at hu; cases hu) (single_power hm n) h
  rwa [List.length_replicate] at this

theorem power_basis {eigh : Eigh} (hE : EighOk eigh) {eps : ℝ} (h0 : 0 < eps) (h1 : eps ≤ 1) {mi : MulIrrep} (hm : mi.mul = 1) {n : ℕ} (hn : n ≠ 0) (hs : 4 * ((mi.ir.dim : ℝ) ^ n) * eps ^ 2 < 1) :
    ∃ t, power eigh eps mi n none = .ok t ∧ PO (List.replicate n [mi]) (symmetricPermRepr n) (List.range n) t := by
  have hG : IsSGroup (List.replicate n [mi]).length (symmetricPermRepr n) := by rw [List.length_replicate]; exact symmetric_group
  have hI : SameIrreps (List.replicate n [mi]) (symmetricPermRepr n) := same_replicate symmetric_group [mi]
  have hdim : Irreps.dim [mi] = mi.ir.dim := by simp [Irreps.dim, hm]
  have hpos : ∀ x ∈ List.replicate n [mi], Irreps.dim x ≠ 0 := by
    intro x hx
    rw [List.eq_of_mem_replicate hx, hdim]
    unfold Irrep.dim
    omega
  have hP : Pre eps (List.replicate n [mi]) (symmetricPermRepr n) := by
    refine ⟨hG, hI, hpos, ?_⟩
    rw [List.map_replicate, List.prod_replicate, hdim]
    push_cast
    exact hs
  obtain ⟨y, y1, -⟩ := basis_total (eigh := eigh) (eps := eps) (opt := fun _ _ _ => .error .runtimeError) (flag := true) (fun irr _ _ => Single irr) (fun irr G keep f hs _ hlt => hs.sub hlt)
    (fun irr G keep _ hs hu => by rw [hs.not_optimized] at hu; cases hu) n (List.replicate n [mi]) (symmetricPermRepr n) none ((n - 1) ^ 2 + n) (by simp)
    ⟨by simpa using hn, hG, hI.compat hG, hpos⟩ (single_power hm n) le_rfl
  obtain ⟨g, o, s⟩ := basis_obasis hE h0 h1 (fun irr _ => Single irr) (fun irr G f hs _ hlt => hs.sub hlt) (fun irr G y hs _ hu => by rw [hs.not_optimized] at hu; cases hu) (single_power hm n) hP y1
  rw [List.length_replicate] at g o s
  refine ⟨y, ?_, g, o, ?_⟩
  · unfold power symmetricBasis
    rw [y1]; rfl
  · by_cases h : n = 1
    · intro z _
      refine symm_of_card_one hG ?_ z
      subst h
      rw [Finset.card_eq_one]
      refine ⟨(1, [0]), ?_⟩
      ext q
      rw [mem_symmetricPermRepr, Finset.mem_singleton]
      constructor
      · rintro ⟨h1, h2⟩
        exact Prod.ext h1 (List.perm_singleton.mp h2)
      · rintro rfl
        exact ⟨rfl, List.Perm.refl _⟩
    · exact s h

/-- All indices of a symmetric power have the same irreps. -/
theorem same_head {irr : List Irreps} (h : SameIrreps irr (symmetricPermRepr irr.length)) (hn : 0 < irr.length) : ∀ m < irr.length, irr.getD m [] = irr.headD [] := by
  intro m hm
  have hq : ((1, m :: (List.range irr.length).erase m) : SPerm) ∈ symmetricPermRepr irr.length := by
    rw [mem_symmetricPermRepr]
    exact ⟨rfl, (List.perm_cons_erase (List.mem_range.mpr hm)).symm⟩
  have := h _ hq 0 hn
  simp only [List.getD_cons_zero] at this
  rw [this]
  cases irr with
  | nil => simp at hn
  | cons x irr => rfl

theorem useOptimized_iff {flag : Bool} {irr : List Irreps} {G : Finset SPerm} :
    useOptimized flag irr G = true ↔ flag = true ∧ G = symmetricPermRepr irr.length ∧ 1 < irr.length ∧ 1 < (irr.headD []).numIrreps := by
  unfold useOptimized
  simp only [Bool.and_eq_true, decide_eq_true_iff, and_assoc]

theorem singles_length (x : Irreps) : (singles x).length = x.numIrreps := by
  unfold singles Irreps.numIrreps
  rw [List.length_flatMap]
  simp

theorem dim_le_singles {x : Irreps} {mi : MulIrrep} (h : mi ∈ singles x) : mi.ir.dim ≤ x.dim := by
  rw [← dim_singles]
  have h1 := singles_mem h
  unfold Irreps.dim
  refine le_trans ?_ (List.single_le_sum (fun _ _ => Nat.zero_le _) _ (List.mem_map_of_mem (f := fun m : MulIrrep => m.mul * m.ir.dim) h))
  simp only [h1, one_mul, le_refl]

theorem dim_prod {irr : List Irreps} {D : ℕ} (h : ∀ m < irr.length, (irr.getD m []).dim = D) : (irr.map Irreps.dim).prod = D ^ irr.length := by
  have : irr.map Irreps.dim = List.replicate irr.length D := by
    rw [List.eq_replicate_iff]
    refine ⟨by simp, fun b hb => ?_⟩
    obtain ⟨x, hx, rfl⟩ := List.mem_map.mp hb
    obtain ⟨i, hi, rfl⟩ := List.getElem_of_mem hx
    rw [← h i hi, List.getD_eq_getElem _ _ hi]
  rw [this, List.prod_replicate]

theorem optimized_basis {eigh : Eigh} (hE : EighOk eigh) {eps : ℝ} (h0 : 0 < eps) (h1 : eps ≤ 1) {irr : List Irreps} {G : Finset SPerm} (hP : Pre eps irr G) {flag : Bool} (hu : useOptimized flag irr G = true) :
    ∃ y, optimized eigh eps (irr.headD []) irr.length none = .ok y ∧ PO irr G (List.range irr.length) y := by
  obtain ⟨-, rfl, hn, hx⟩ := useOptimized_iff.mp hu
  have hsame := same_head hP.same (by omega)
  refine optimizedWith_basis (by rw [singles_length]; omega) (by omega) (fun mi hmi n hn hnd => power_basis hE h0 h1 (singles_mem hmi) hn ?_) rfl hsame
  refine lt_of_le_of_lt ?_ hP.small
  rw [dim_prod fun m hm => by rw [hsame m hm]]
  have hd := dim_le_singles hmi
  have hpos : 1 ≤ (irr.headD []).dim := by
    have : 0 < mi.ir.dim := by unfold Irrep.dim; omega
    omega
  have : mi.ir.dim ^ n ≤ (irr.headD []).dim ^ irr.length := (Nat.pow_le_pow_left hd n).trans (Nat.pow_le_pow_right hpos hnd)
  have : ((mi.ir.dim : ℝ) ^ n) ≤ (((irr.headD []).dim ^ irr.length : ℕ) : ℝ) := by exact_mod_cast this
  gcongr

theorem optimized_good {eigh : Eigh} {eps : ℝ} {irr : List Irreps} {G : Finset SPerm} (hI : SameIrreps irr G) {flag : Bool} (hu : useOptimized flag irr G = true) {keep : Option (List Irrep)} {y : IArr Ten}
    (h : optimized eigh eps (irr.headD []) irr.length keep = .ok y) : Good irr (List.range irr.length) y := by
  obtain ⟨-, rfl, hn, hx⟩ := useOptimized_iff.mp hu
  exact optimizedWith_good (by rw [singles_length]; omega) (by omega) (fun mi hmi n _ keep t ht => power_good (singles_mem hmi) ht) (same_head hI (by omega)) h

/-- **C97 (equivariance).** The whole algorithm with `_use_optimized_implementation` on or off, every `keep_ir`, tolerance and choice of
eigenvectors: if the symmetries exchange only indices with the same irreps, what is returned transforms as its irreps say. -/
theorem C97_equivariant (eigh : Eigh) (eps : ℝ) (flag : Bool) (fuel : ℕ) (irr : List Irreps) (G : Finset SPerm) (keep : Option (List Irrep)) (B : IArr Ten)
    (hG : IsSGroup irr.length G) (hI : SameIrreps irr G) (h : basis eigh eps (optimized eigh eps) flag fuel irr G keep = some (.ok B)) : Equivariant irr B := by
  refine (basis_good (fun irr G => IsSGroup irr.length G ∧ SameIrreps irr G) ?_ (fun irr G keep y hq hu hy => optimized_good hq.2 hu hy) ⟨hG, hI⟩ h).equivariant
  rintro irr G f ⟨h1, h2⟩ hf hlt
  exact ⟨by rw [List.length_map]; exact subrepr_group h1 hlt hf, h2.sub h1 hf hlt⟩

/-- **C97.** Whether `_use_optimized_implementation` is on (the default) or off, at least one index, without `keep_ir`: the algorithm returns, and the columns of the returned `IrrepsArray` are an
orthonormal basis of the arrays with the symmetries `G` and transform as the irreps say. -/
theorem C97_basis {eigh : Eigh} (hE : EighOk eigh) {eps : ℝ} (h0 : 0 < eps) (h1 : eps ≤ 1) (flag : Bool) (irr : List Irreps) (G : Finset SPerm) (hne : irr ≠ [])
    (hG : IsSGroup irr.length G) (hI : SameIrreps irr G) (hd : ∀ x ∈ irr, x.dim ≠ 0) (hs : 4 * ((irr.map Irreps.dim).prod : ℝ) * eps ^ 2 < 1)
    (hm : irr.length ≠ 1 ∨ (-1, [0]) ∉ G) {fuel : ℕ} (hf : (irr.length - 1) ^ 2 + irr.length ≤ fuel) :
    ∃ B, basis eigh eps (optimized eigh eps) flag fuel irr G none = some (.ok B) ∧ OrthonormalBasis irr G B.array ∧ Equivariant irr B ∧ ∀ t ∈ B.array, IsArray irr.length t := by
  have hP : Pre eps irr G := ⟨hG, hI, hd, hs⟩
  obtain ⟨B, hB, -⟩ := basis_total (eigh := eigh) (eps := eps) (opt := optimized eigh eps) (flag := flag) (fun irr G keep => keep = none ∧ Pre eps irr G)
    (fun irr G keep f hq hf hlt => ⟨by rw [hq.1]; exact subKeep_none _ _, hq.2.sub hf hlt⟩)
    (fun irr G keep _ hq hu => by
      obtain ⟨y, y1, y2⟩ := optimized_basis hE h0 h1 hq.2 hu
      exact ⟨y, by rw [hq.1]; exact y1, y2.good.1⟩)
    irr.length irr G none fuel rfl ⟨hne, hG, hI.compat hG, hd⟩ ⟨rfl, hP⟩ hf
  obtain ⟨g, o, s⟩ := basis_obasis hE h0 h1 (fun irr G => True) (fun _ _ _ _ _ _ => trivial)
    (fun irr G y _ hP hu hy => by
      obtain ⟨y', y1, y2⟩ := optimized_basis hE h0 h1 hP hu
      rw [hy] at y1; cases y1
      exact ⟨y2.good, y2.basis, y2.symm⟩) trivial hP hB
  exact ⟨B, hB, OrthonormalBasis.of_obasis hG hm g o s⟩

/-- The two algorithms span the same space: they return the same number of columns. -/
theorem C97_same_dim {eigh : Eigh} (hE : EighOk eigh) {eps : ℝ} (h0 : 0 < eps) (h1 : eps ≤ 1) (irr : List Irreps) (G : Finset SPerm) (hne : irr ≠ [])
    (hG : IsSGroup irr.length G) (hI : SameIrreps irr G) (hd : ∀ x ∈ irr, x.dim ≠ 0) (hs : 4 * ((irr.map Irreps.dim).prod : ℝ) * eps ^ 2 < 1)
    (hm : irr.length ≠ 1 ∨ (-1, [0]) ∉ G) {fuel : ℕ} (hf : (irr.length - 1) ^ 2 + irr.length ≤ fuel) :
    ∃ A B, basis eigh eps (optimized eigh eps) false fuel irr G none = some (.ok A) ∧ basis eigh eps (optimized eigh eps) true fuel irr G none = some (.ok B) ∧ A.array.length = B.array.length := by
  obtain ⟨A, a1, a2, -, a3⟩ := C97_basis hE h0 h1 false irr G hne hG hI hd hs hm hf
  obtain ⟨B, b1, b2, -, b3⟩ := C97_basis hE h0 h1 true irr G hne hG hI hd hs hm hf
  exact ⟨A, B, a1, b1, a2.length_eq b2 a3 b3⟩

/-- **C97 (formula).** As C96, for the algorithm as it is called by default (`flag = true`) and without the optimization. -/
theorem C97_formula {eigh : Eigh} (hE : EighOk eigh) {eps : ℝ} (h0 : 0 < eps) (h1 : eps ≤ 1) (flag : Bool) (order : Finset SPerm → List SPerm) (ho : ∀ G q, q ∈ order G ↔ q ∈ G)
    (names : List Char) (rest : List Part) (hne : names ≠ []) (hc : Clean ((false, names) :: rest)) (hw : WellFormed names rest)
    (hm : names.length ≠ 1 ∨ ∀ q ∈ rest, q.1 = false)
    (kw : Dict) (hk : (kw.map Prod.fst).Nodup) (hin : ∀ q ∈ kw, ∃ c ∈ names, q.1 = [c]) (a : Char → Irreps) (ha : Admissible names rest kw a)
    (hu : ∀ a', Admissible names rest kw a' → ∀ c ∈ names, a' c = a c) (hd : ∀ c ∈ names, (a c).dim ≠ 0)
    (hs : 4 * ((names.map fun c => (a c).dim).prod : ℝ) * eps ^ 2 < 1) (fuel : ℕ) (hf : 2 * factorial names.length < fuel) (hf2 : (names.length - 1) ^ 2 + names.length ≤ fuel) :
    ∃ B, formulaBasis eigh eps (optimized eigh eps) flag order fuel (text ((false, names) :: rest)) kw none = some (.ok B) ∧
      Equivariant (names.map a) B ∧
      (∀ i (hi : i < B.array.length) j (hj : j < B.array.length), inner (names.map a) B.array[i] B.array[j] = if i = j then 1 else 0) ∧
      (∀ t ∈ B.array, IndexSymmetry.Symmetric (fun c => (a c).dim) names rest fun x => t fun i => x.getD i 0) ∧
      (∀ T : List ℕ → ℝ, IndexSymmetry.Symmetric (fun c => (a c).dim) names rest T → ∀ x : List ℕ, List.Forall₂ (· < ·) x (names.map fun c => (a c).dim) →
        T x = (B.array.map fun t => innerList (names.map fun c => (a c).dim) t T * t fun i => x.getD i 0).sum) := by
  refine formula_aux order ho names rest hne hc hw hm kw hk hin a ha hu hd fuel hf fun G hG hI hd' hm' hne' => ?_
  have hdim : (names.map a).map Irreps.dim = names.map fun c => (a c).dim := by rw [List.map_map]; rfl
  exact C97_basis hE h0 h1 flag (names.map a) G hne' hG hI hd' (by rw [hdim]; exact hs) hm' (fuel := fuel) (by rw [List.length_map]; exact hf2)

/-- **C97 (symmetric).** `reduced_symmetric_tensor_product_basis` as it is called by default: an orthonormal basis of the arrays that no exchange of indices changes. -/
theorem C97_symmetric {eigh : Eigh} (hE : EighOk eigh) {eps : ℝ} (h0 : 0 < eps) (h1 : eps ≤ 1) (flag : Bool) (irreps : Irreps) (n : ℕ) (hn : n ≠ 0) (hd : irreps.dim ≠ 0)
    (hs : 4 * ((irreps.dim : ℝ) ^ n) * eps ^ 2 < 1) {fuel : ℕ} (hf : (n - 1) ^ 2 + n ≤ fuel) :
    ∃ B, symmetricBasis eigh eps (optimized eigh eps) flag fuel irreps n none = some (.ok B) ∧ Equivariant (List.replicate n irreps) B ∧
      OrthonormalBasis (List.replicate n irreps) (symmetricPermRepr n) B.array := by
  have hG : IsSGroup (List.replicate n irreps).length (symmetricPermRepr n) := by rw [List.length_replicate]; exact symmetric_group
  obtain ⟨B, hB, o, e, -⟩ := C97_basis hE h0 h1 flag (List.replicate n irreps) _ (by simpa using hn) hG (same_replicate symmetric_group irreps)
    (fun x hx => by rw [List.eq_of_mem_replicate hx]; exact hd) (by rw [List.map_replicate, List.prod_replicate]; push_cast; exact hs)
    (Or.inr (by rw [mem_symmetricPermRepr]; simp)) (fuel := fuel) (by rw [List.length_replicate]; exact hf)
  exact ⟨B, hB, e, o⟩

/-- The symmetric tensors of degree three of `0e + 2x1o`, for which the optimized algorithm is used, with the default tolerance. -/
example : ∃ (eigh : Eigh) (B : IArr Ten), EighOk eigh ∧ useOptimized true (List.replicate 3 [⟨1, ⟨0, .e⟩⟩, ⟨2, ⟨1, .o⟩⟩]) (symmetricPermRepr 3) = true ∧
    symmetricBasis eigh 0.00001 (optimized eigh 0.00001) true 7 [⟨1, ⟨0, .e⟩⟩, ⟨2, ⟨1, .o⟩⟩] 3 none = some (.ok B) ∧
      OrthonormalBasis (List.replicate 3 [⟨1, ⟨0, .e⟩⟩, ⟨2, ⟨1, .o⟩⟩]) (symmetricPermRepr 3) B.array := by
  obtain ⟨eigh, hE⟩ := exists_eigh
  obtain ⟨B, h1, -, h2⟩ := C97_symmetric hE (eps := 0.00001) (by norm_num) (by norm_num) true [⟨1, ⟨0, .e⟩⟩, ⟨2, ⟨1, .o⟩⟩] 3 (by simp) (by decide) (by
    have : Irreps.dim [⟨1, ⟨0, .e⟩⟩, ⟨2, ⟨1, .o⟩⟩] = 7 := by decide
    rw [this]; norm_num) (fuel := 7) (by simp)
  refine ⟨eigh, B, hE, ?_, h1, h2⟩
  rw [useOptimized_iff]
  exact ⟨rfl, by simp, by simp, by decide⟩

end E3nn.RTP

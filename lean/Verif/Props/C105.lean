import Verif.Lemmas.RTPKeepOpt
import Verif.Props.C97

/-!
# C105: `keep_ir` of `reduced_tensor_product_basis`
-/

namespace E3nn.RTP

open Matrix E3nn.IArr E3nn.LinAlg E3nn.PermRepr E3nn.Wig E3nn.Perm E3nn.IndexSymmetry

theorem power_kept {eigh : Eigh} (hE : EighOk eigh) {eps : ℝ} (h0 : 0 < eps) (h1 : eps ≤ 1) {mi : MulIrrep} (hm : mi.mul = 1) {n : ℕ} (hs : 4 * ((mi.ir.dim : ℝ) ^ n) * eps ^ 2 < 1)
    {keep : Option (List Irrep)} {t : IArr Ten} (h : power eigh eps mi n keep = .ok t) :
    Inv t ∧ KB (List.replicate n [mi]) (symmetricPermRepr n) (List.range n) keep True t.blocks := by
  have hG : IsSGroup (List.replicate n [mi]).length (symmetricPermRepr n) := by rw [List.length_replicate]; exact symmetric_group
  have hI : SameIrreps (List.replicate n [mi]) (symmetricPermRepr n) := same_replicate symmetric_group [mi]
  have hdim : Irreps.dim [mi] = mi.ir.dim := by simp [Irreps.dim, hm]
  have hpos : ∀ x ∈ List.replicate n [mi], Irreps.dim x ≠ 0 := by
    intro x hx
    rw [List.eq_of_mem_replicate hx, hdim]
    unfold Irrep.dim
    omega
  have hP : Pre eps (List.replicate n [mi]) (symmetricPermRepr n) := by
    refine ⟨hG, hI, hpos, ?_⟩
    rw [List.map_replicate, List.prod_replicate, hdim]
    push_cast
    exact hs
  obtain ⟨i, k, -⟩ := basis_kept hE h0 h1 (fun irr _ => Single irr) (fun irr G f hs _ hlt => hs.sub hlt) (fun irr G keep y hs _ hu => by rw [hs.not_optimized] at hu; cases hu) (single_power hm n) hP (getD_some_ok h)
  rw [List.length_replicate] at k
  refine ⟨i, ?_⟩
  by_cases hn : n = 1
  · obtain ⟨A', k1, k2, k3, -⟩ := k
    refine ⟨A', k1, k2, k3, fun _ z _ => symm_of_card_one hG ?_ z⟩
    subst hn
    rw [Finset.card_eq_one]
    refine ⟨(1, [0]), ?_⟩
    ext q
    rw [mem_symmetricPermRepr, Finset.mem_singleton]
    constructor
    · rintro ⟨h1, h2⟩
      exact Prod.ext h1 (List.perm_singleton.mp h2)
    · rintro rfl
      exact ⟨rfl, List.Perm.refl _⟩
  · exact k.imp fun _ => hn

theorem power_total (eigh : Eigh) (eps : ℝ) {mi : MulIrrep} (hm : mi.mul = 1) {n : ℕ} (hn : n ≠ 0) (keep : Option (List Irrep)) : ∃ t, power eigh eps mi n keep = .ok t := by
  have hG : IsSGroup (List.replicate n [mi]).length (symmetricPermRepr n) := by rw [List.length_replicate]; exact symmetric_group
  have hI : SameIrreps (List.replicate n [mi]) (symmetricPermRepr n) := same_replicate symmetric_group [mi]
  have hpos : ∀ x ∈ List.replicate n [mi], Irreps.dim x ≠ 0 := by
    intro x hx
    rw [List.eq_of_mem_replicate hx]
    simp [Irreps.dim, hm, Irrep.dim]
  obtain ⟨y, y1, -⟩ := basis_total (eigh := eigh) (eps := eps) (opt := fun _ _ _ => .error .runtimeError) (flag := true) (fun irr _ _ => Single irr) (fun irr G keep f hs _ hlt => hs.sub hlt)
    (fun irr G keep _ hs hu => by rw [hs.not_optimized] at hu; cases hu) n (List.replicate n [mi]) (symmetricPermRepr n) keep ((n - 1) ^ 2 + n) (by simp)
    ⟨by simpa using hn, hG, hI.compat hG, hpos⟩ (single_power hm n) le_rfl
  refine ⟨y, ?_⟩
  unfold power symmetricBasis
  rw [y1]; rfl

theorem small_power {eps : ℝ} {irr : List Irreps} {G : Finset SPerm} (hP : Pre eps irr G) (hsame : ∀ m < irr.length, irr.getD m [] = irr.headD []) {mi : MulIrrep} (hmi : mi ∈ singles (irr.headD [])) {n : ℕ}
    (hnd : n ≤ irr.length) : 4 * ((mi.ir.dim : ℝ) ^ n) * eps ^ 2 < 1 := by
  refine lt_of_le_of_lt ?_ hP.small
  rw [dim_prod fun m hm => by rw [hsame m hm]]
  have hd := dim_le_singles hmi
  have hpos : 1 ≤ (irr.headD []).dim := by
    have : 0 < mi.ir.dim := by unfold Irrep.dim; omega
    omega
  have : mi.ir.dim ^ n ≤ (irr.headD []).dim ^ irr.length := (Nat.pow_le_pow_left hd n).trans (Nat.pow_le_pow_right hpos hnd)
  have : ((mi.ir.dim : ℝ) ^ n) ≤ (((irr.headD []).dim ^ irr.length : ℕ) : ℝ) := by exact_mod_cast this
  gcongr

/-- The optimized algorithm with `keep_ir`: what it returns, and that it raises exactly if nothing is kept. -/
theorem optimized_cases {eigh : Eigh} (hE : EighOk eigh) {eps : ℝ} (h0 : 0 < eps) (h1 : eps ≤ 1) {irr : List Irreps} {G : Finset SPerm} (hP : Pre eps irr G) {flag : Bool} (hu : useOptimized flag irr G = true)
    (keep : Option (List Irrep)) :
    ∃ L, KB irr G (List.range irr.length) keep True L ∧ (∀ p ∈ L, ¬ Out keep p.1) ∧
      ((L = [] ∧ optimized eigh eps (irr.headD []) irr.length keep = .error .valueError) ∨
        ∃ y, optimized eigh eps (irr.headD []) irr.length keep = .ok y ∧ Inv y ∧ y.blocks.Perm L ∧ L ≠ []) := by
  obtain ⟨-, rfl, hn, hx⟩ := useOptimized_iff.mp hu
  have hsame := same_head hP.same (by omega)
  obtain ⟨pows, hpows⟩ : ∃ pows, ((singles (irr.headD [])).mapM fun mi => (List.range irr.length).mapM fun n =>
      power eigh eps mi (n + 1) (tpIrSeq keep (tpIrSeqPow ((singles (irr.headD [])).map MulIrrep.ir) (irr.length - (n + 1))))) = .ok pows :=
    mapM_exists fun mi hmi => mapM_exists fun n _ => power_total eigh eps (singles_mem hmi) (by omega) _
  exact optimizedWith_core (by rw [singles_length]; omega) (by omega) (fun mi hmi n _ hnd keep t ht => power_kept hE h0 h1 (singles_mem hmi) (small_power hP hsame hmi hnd) ht) rfl hsame hpows

theorem optimized_kept {eigh : Eigh} (hE : EighOk eigh) {eps : ℝ} (h0 : 0 < eps) (h1 : eps ≤ 1) {irr : List Irreps} {G : Finset SPerm} (hP : Pre eps irr G) {flag : Bool} (hu : useOptimized flag irr G = true)
    {keep : Option (List Irrep)} {y : IArr Ten} (h : optimized eigh eps (irr.headD []) irr.length keep = .ok y) : Kept irr G keep y := by
  obtain ⟨L, k, o, c⟩ := optimized_cases hE h0 h1 hP hu keep
  rcases c with ⟨-, c⟩ | ⟨y', c1, c2, c3, -⟩
  · rw [h] at c; cases c
  · rw [h] at c1; cases c1
    exact ⟨c2, (k.perm c3).imp fun _ => trivial, fun p hp => o p (c3.mem_iff.mp hp)⟩

/-- A symmetric family of a kept irrep is the sum of its components along the kept columns. -/
theorem KB.complete {irr : List Irreps} {G : Finset SPerm} {keep : Option (List Irrep)} {s : Prop} {A : List (Irrep × List Ten)} (hG : IsSGroup irr.length G) (hI : SameIrreps irr G)
    (h : KB irr G (List.range irr.length) keep s A) {ir : Irrep} (ho : ¬ Out keep ir) {v : Fin (2 * ir.l + 1) → Ten} (hv : Fam irr ir v) (hs : ∀ c, Symm irr G (v c)) (c : Fin (2 * ir.l + 1)) {σ : ℕ → ℕ} (hσ : InR irr σ) :
    v c σ = expansion (axisDim irr) (List.range irr.length) (A.flatMap Prod.snd) (v c) σ := by
  obtain ⟨A', k1, k2, k3, -⟩ := h
  rw [k3.complete (v c) ((symOn_iff hG).mpr (hs c)) σ hσ]
  unfold expansion
  rw [List.flatMap_append, List.map_append, List.sum_append]
  have : ((A'.flatMap Prod.snd).map fun x => x σ * axSum (axisDim irr) (List.range irr.length) (x * v c) σ).sum = 0 := by
    apply List.sum_eq_zero
    intro r hr
    obtain ⟨t, ht, rfl⟩ := List.mem_map.mp hr
    obtain ⟨p, hp, ht⟩ := List.mem_flatMap.mp ht
    obtain ⟨w, w1, w2, w3⟩ := (k1 p (by simp [hp])).1.exists
    rw [w1] at ht
    obtain ⟨a, rfl⟩ := (List.mem_ofFn' _ _).mp ht
    have hne : ir ≠ p.1 := by rintro rfl; exact ho (k2 p hp)
    have hz := congrFun (congrFun (schur_diff hG hI hne hv ⟨w2, w3⟩) a) c
    have e : axSum (axisDim irr) (List.range irr.length) (w a * v c) σ = elem irr G w v a c := by
      rw [← elem_eq hG w2 hv.on a c σ]
      refine axSum_congr (axisDim irr) (List.range irr.length) fun τ h1 _ => ?_
      rw [Pi.mul_apply, Pi.mul_apply, (symm_iff_avg hG hI).mp (hs c) τ fun i hi => h1 i (List.mem_range.mpr hi)]
    rw [e, hz]
    simp
  rw [this, add_zero]

theorem blocks_len {C : IArr Ten} (hi : Inv C) : ∀ p ∈ C.blocks, p.2.length = p.1.dim := by
  have : ∀ (s : List Irrep) (a : List Ten), a.length = dimOf s → ∀ p ∈ blocksOf s a, p.2.length = p.1.dim := by
    intro s
    induction s with
    | nil => intro a _ p hp; simp [blocksOf] at hp
    | cons ir s ih =>
      intro a h p hp
      rw [dimOf_cons] at h
      have hd : ir.dim = 2 * ir.l + 1 := rfl
      simp only [blocksOf, List.mem_cons] at hp
      rcases hp with rfl | hp
      · simp only [List.length_take]; omega
      · exact ih _ (by rw [List.length_drop]; omega) p hp
  exact this _ _ (inv_len hi)

/-- An `IrrepsArray` of arrays that transforms as its irreps say: its blocks are families. -/
theorem good_of_equivariant {irr : List Irreps} {C : IArr Ten} (h : Equivariant irr C) (ha : ∀ t ∈ C.array, IsArray irr.length t) : Good irr (List.range irr.length) C := by
  have hi : Inv C := h.1.inv
  have hlen : ∀ p ∈ C.blocks, p.2.length = p.1.dim := fun p hp => blocks_len hi p hp
  refine ⟨hi, fun p hp => ?_⟩
  obtain ⟨v, hv⟩ := exists_ofFn (n := 2 * p.1.l + 1) (hlen p hp)
  have hon : ∀ c, On (List.range irr.length) (v c) := by
    intro c σ τ hστ
    refine ha (v c) ?_ σ τ fun i hi => hστ i (List.mem_range.mpr hi)
    rw [← hi.array_eq_blocks, ← List.flatMap_def]
    exact List.mem_flatMap.mpr ⟨p, hp, by rw [hv]; exact (List.mem_ofFn' _ _).mpr ⟨c, rfl⟩⟩
  have hp' : p = (p.1, List.ofFn v) := by rw [← hv]
  rw [hp']
  refine BGood.ofFn hon fun R hR c => ?_
  obtain ⟨y, y1, y2⟩ := h.2 R hR
  obtain ⟨y', z1, z2, -, -, z5⟩ := C59_transform R C h.1
  rw [y1] at z1; cases z1
  rw [← z2.inv.array_eq_blocks, ← hi.array_eq_blocks, z5, List.map_flatten, List.map_map, List.map_map] at y2
  have y3 := (List.eq_iff_flatten_eq.mpr ⟨y2, by
    rw [List.map_map, List.map_map]
    apply List.map_congr_left
    intro q hq
    obtain ⟨w, hw⟩ := exists_ofFn (n := 2 * q.1.l + 1) (hlen q hq)
    simp only [Function.comp_apply, List.length_map]
    rw [hw, matVec_ofFn]
    simp⟩)
  rw [List.map_inj_left] at y3
  have y4 := y3 p hp
  simp only [Function.comp_apply] at y4
  rw [hv, matVec_ofFn, List.map_ofFn] at y4
  have y5 := fun c => congrFun (List.ofFn_injective y4) c
  have e : ∀ t, rotate irr R t = onAxes (axisDim irr) (mats irr R) (List.range irr.length) t := fun _ => rfl
  simp only [Function.comp_apply, e, onAxes_sum, onAxes_smul] at y5
  have ho : Wig.dMatrix p.1 Rᵀ * Wig.dMatrix p.1 R = 1 := by
    rw [(C39_orthogonal p.1 hR).2]
    exact mul_eq_one_comm.mp (C39_orthogonal p.1 hR).1
  calc _ = ∑ c', (1 : Matrix (Fin (2 * p.1.l + 1)) (Fin (2 * p.1.l + 1)) ℝ) c c' • onAxes (axisDim irr) (mats irr R) (List.range irr.length) (v c') := by simp [Matrix.one_apply]
    _ = ∑ c', Wig.dMatrix p.1 Rᵀ c c' • ∑ j, Wig.dMatrix p.1 R c' j • onAxes (axisDim irr) (mats irr R) (List.range irr.length) (v j) := by
      rw [← ho]
      simp only [Matrix.mul_apply, Finset.sum_smul, Finset.smul_sum, smul_smul]
      rw [Finset.sum_comm]
    _ = _ := by
      apply Finset.sum_congr rfl
      intro c' _
      rw [y5 c']

theorem symm_of_one {irr : List Irreps} {G : Finset SPerm} (hG : IsSGroup irr.length G) (hm : irr.length ≠ 1 ∨ (-1, [0]) ∉ G) (hn : irr.length = 1) (t : Ten) : Symm irr G t := by
  intro q hq σ hσ
  have hn1 := hm.resolve_left (not_not.mpr hn)
  have hp := hG.perm q hq
  rw [hn] at hp
  have e2 : q.2 = [0] := List.perm_singleton.mp hp
  rcases hG.sign q hq with h | h
  · have : q = (1, [0]) := Prod.ext h e2
    rw [this]
    show t (fun i => σ (([0] : List ℕ).getD i i)) = _
    have : (fun i => σ ([0].getD i i)) = σ := by
      funext i
      cases i with
      | zero => rfl
      | succ i => rfl
    rw [this]; simp
  · exact absurd (by rw [← h, ← e2]; exact hq) hn1

theorem KB.sym {irr : List Irreps} {G : Finset SPerm} {keep : Option (List Irrep)} {A : List (Irrep × List Ten)} (hG : IsSGroup irr.length G) (hm : irr.length ≠ 1 ∨ (-1, [0]) ∉ G)
    (h : KB irr G (List.range irr.length) keep (irr.length ≠ 1) A) : KB irr G (List.range irr.length) keep True A := by
  obtain ⟨A', h1, h2, h3, h4⟩ := h
  refine ⟨A', h1, h2, h3, fun _ z hz => ?_⟩
  by_cases hn : irr.length = 1
  · exact symm_of_one hG hm hn z
  · exact h4 hn z hz

/-- The copies of one kept irrep. -/
theorem KB.only {irr : List Irreps} {G : Finset SPerm} {keep : Option (List Irrep)} {f : List ℕ} {s : Prop} {A : List (Irrep × List Ten)} (h : KB irr G f keep s A) {ir : Irrep} (ho : ¬ Out keep ir) :
    KB irr G f (some [ir]) s (A.filter fun p => decide (p.1 = ir)) := by
  classical
  obtain ⟨A', h1, h2, h3, h4⟩ := h
  refine KB.of_full h1 h3 h4 (some [ir]) (List.Perm.of_eq ?_)
  rw [List.filter_append]
  have e1 : A'.filter (fun p => decide (¬ Out (some [ir]) p.1)) = [] := by
    rw [List.filter_eq_nil_iff]
    intro p hp
    rw [decide_eq_true_iff, out_some, not_not, List.mem_singleton]
    rintro rfl
    exact ho (h2 p hp)
  rw [e1, List.append_nil]
  apply List.filter_congr
  intro p _
  rw [decide_eq_decide, out_some, not_not, List.mem_singleton]

theorem length_le_of {irr : List Irreps} {A B : List Ten} (hA : ∀ a ∈ A, inner irr a a = 1) (hc : ∀ a ∈ A, SameEntries irr a fun σ => (B.map fun t => inner irr t a * t σ).sum) :
    (A.length : ℝ) = (A.map fun a => (B.map fun b => inner irr a b * inner irr a b).sum).sum := by
  have e1 : (A.length : ℝ) = (A.map fun a => inner irr a a).sum := by
    have : (A.map fun a => inner irr a a) = A.map fun _ => (1 : ℝ) := by
      apply List.map_congr_left
      intro a ha
      rw [hA a ha]
    rw [this]; simp
  rw [e1]
  congr 1
  apply List.map_congr_left
  intro a ha
  have e2 : inner irr a a = inner irr a fun σ => (B.map fun t => inner irr t a * t σ).sum := by
    unfold inner
    congr 1
    apply List.map_congr_left
    intro x hx
    exact congrArg (fun c => a (idx x) * c) (hc a ha (idx x) (idx_inR hx))
  rw [e2, inner_sum_right]
  congr 1
  apply List.map_congr_left
  intro b _
  rw [inner_comm irr b a]

theorem length_eq_of {irr : List Irreps} {A B : List Ten} (hA : ∀ a ∈ A, inner irr a a = 1) (hc : ∀ a ∈ A, SameEntries irr a fun σ => (B.map fun t => inner irr t a * t σ).sum)
    (hB : ∀ a ∈ B, inner irr a a = 1) (hd : ∀ a ∈ B, SameEntries irr a fun σ => (A.map fun t => inner irr t a * t σ).sum) : A.length = B.length := by
  have h := length_le_of hB hd
  rw [list_sum_comm] at h
  have e : ∀ a b, inner irr b a * inner irr b a = inner irr a b * inner irr a b := fun a b => by rw [inner_comm irr b a]
  simp only [e] at h
  have := (length_le_of hA hc).trans h.symm
  exact_mod_cast this

theorem KB.on {irr : List Irreps} {G : Finset SPerm} {keep : Option (List Irrep)} {f : List ℕ} {s : Prop} {A : List (Irrep × List Ten)} (h : KB irr G f keep s A) : ∀ t ∈ A.flatMap Prod.snd, On f t := by
  obtain ⟨A', h1, -⟩ := h
  intro t ht
  obtain ⟨p, hp, ht⟩ := List.mem_flatMap.mp ht
  exact (h1 p (by simp [hp])).1.on t ht

/-- The columns that belong to kept irreps are sums of their components along the kept columns of any other result. -/
theorem KB.sums {irr : List Irreps} {G : Finset SPerm} {keep : Option (List Irrep)} {s : Prop} {A : List (Irrep × List Ten)} (hG : IsSGroup irr.length G) (hI : SameIrreps irr G)
    (h : KB irr G (List.range irr.length) keep s A) {p : Irrep × List Ten} (hp : BGood irr (List.range irr.length) p) (ho : ¬ Out keep p.1) (hs : ∀ t ∈ p.2, Symm irr G t) :
    ∀ T ∈ p.2, SameEntries irr T fun σ => ((A.flatMap Prod.snd).map fun t => inner irr t T * t σ).sum := by
  obtain ⟨v, v1, v2, v3⟩ := hp.exists
  intro T hT σ hσ
  rw [v1] at hT
  obtain ⟨c, rfl⟩ := (List.mem_ofFn' _ _).mp hT
  rw [h.complete hG hI ho ⟨v2, v3⟩ (fun c => hs _ (by rw [v1]; exact (List.mem_ofFn' _ _).mpr ⟨c, rfl⟩)) c hσ]
  unfold expansion
  congr 1
  apply List.map_congr_left
  intro t ht
  rw [mul_comm, inner_axSum irr (h.on t ht) (v2 c) σ]

theorem KB.norm {irr : List Irreps} {G : Finset SPerm} {keep : Option (List Irrep)} {s : Prop} {A : List (Irrep × List Ten)} (h : KB irr G (List.range irr.length) keep s A) :
    ∀ t ∈ A.flatMap Prod.snd, inner irr t t = 1 := by
  intro t ht
  have ho := h.on t ht
  obtain ⟨A', -, -, h3, -⟩ := h
  rw [inner_axSum irr ho ho 0, h3.norm t (by rw [List.flatMap_append]; exact List.mem_append_left _ ht)]; rfl

theorem KB.symm' {irr : List Irreps} {G : Finset SPerm} {keep : Option (List Irrep)} {f : List ℕ} {A : List (Irrep × List Ten)} (h : KB irr G f keep True A) : ∀ t ∈ A.flatMap Prod.snd, Symm irr G t := by
  obtain ⟨A', -, -, -, h4⟩ := h
  intro t ht
  exact h4 trivial t (by rw [List.flatMap_append]; exact List.mem_append_left _ ht)

theorem KB.good {irr : List Irreps} {G : Finset SPerm} {keep : Option (List Irrep)} {f : List ℕ} {s : Prop} {A : List (Irrep × List Ten)} (h : KB irr G f keep s A) : ∀ p ∈ A, BGood irr f p := by
  obtain ⟨A', h1, -⟩ := h
  exact fun p hp => (h1 p (by simp [hp])).1

theorem flatMap_length {ir : Irrep} {A : List (Irrep × List Ten)} (h : ∀ p ∈ A, p.2.length = p.1.dim) (h' : ∀ p ∈ A, p.1 = ir) : (A.flatMap Prod.snd).length = A.length * ir.dim := by
  induction A with
  | nil => simp
  | cons p A ih =>
    rw [List.flatMap_cons, List.length_append, ih (fun q hq => h q (by simp [hq])) (fun q hq => h' q (by simp [hq])), h p (by simp), h' p (by simp), List.length_cons]
    ring

theorem KB.count {irr : List Irreps} {G : Finset SPerm} {keep keep' : Option (List Irrep)} {A B : List (Irrep × List Ten)} (hG : IsSGroup irr.length G) (hI : SameIrreps irr G)
    (hA : KB irr G (List.range irr.length) keep True A) (hB : KB irr G (List.range irr.length) keep' True B) {ir : Irrep} (ho : ¬ Out keep ir) (ho' : ¬ Out keep' ir) :
    (A.map Prod.fst).count ir = (B.map Prod.fst).count ir := by
  have hA := hA.only ho
  have hB := hB.only ho'
  have hm : ∀ {A : List (Irrep × List Ten)}, ∀ p ∈ A.filter (fun p => decide (p.1 = ir)), p.1 = ir := fun p hp => of_decide_eq_true (List.mem_filter.mp hp).2
  have hsum : ∀ {A B : List (Irrep × List Ten)}, KB irr G (List.range irr.length) (some [ir]) True (A.filter fun p => decide (p.1 = ir)) →
      KB irr G (List.range irr.length) (some [ir]) True (B.filter fun p => decide (p.1 = ir)) →
      ∀ T ∈ (A.filter fun p => decide (p.1 = ir)).flatMap Prod.snd, SameEntries irr T fun σ => (((B.filter fun p => decide (p.1 = ir)).flatMap Prod.snd).map fun t => inner irr t T * t σ).sum := by
    intro A B hA hB T hT
    obtain ⟨p, hp, hT⟩ := List.mem_flatMap.mp hT
    refine hB.sums hG hI (hA.good p hp) ?_ (fun t ht => hA.symm' t (List.mem_flatMap.mpr ⟨p, hp, ht⟩)) T hT
    rw [out_some, not_not, List.mem_singleton]
    exact hm p hp
  have h := length_eq_of hA.norm (hsum hA hB) hB.norm (hsum hB hA)
  rw [flatMap_length (fun p hp => (hA.good p hp).len) hm, flatMap_length (fun p hp => (hB.good p hp).len) hm] at h
  have h := Nat.eq_of_mul_eq_mul_right (by unfold Irrep.dim; omega) h
  have e : ∀ A : List (Irrep × List Ten), (A.map Prod.fst).count ir = (A.filter fun p => decide (p.1 = ir)).length := by
    intro A
    rw [List.count, List.countP_map, List.countP_eq_length_filter]
    rfl
  rw [e, e, h]

/-- **The specification of `keep_ir`.** The columns of `B` have only irreps of `l`, are orthonormal, have the symmetries `G` and transform as the
irreps say; and `B` is complete for these irreps: every `IrrepsArray` `C` of arrays with the symmetries that has only irreps of `l` and
transforms as its irreps say has its columns in the span of those of `B`. -/
structure KeptBasis (irr : List Irreps) (G : Finset SPerm) (l : List Irrep) (B : IArr Ten) : Prop where
  irreps : ∀ m ∈ B.irreps, m.mul ≠ 0 → m.ir ∈ l
  array : ∀ t ∈ B.array, IsArray irr.length t
  orthonormal : ∀ i (hi : i < B.array.length) j (hj : j < B.array.length), inner irr B.array[i] B.array[j] = if i = j then 1 else 0
  symmetric : ∀ t ∈ B.array, Symmetric irr G t
  equivariant : Equivariant irr B
  complete : ∀ C : IArr Ten, Equivariant irr C → (∀ m ∈ C.irreps, m.mul ≠ 0 → m.ir ∈ l) → (∀ T ∈ C.array, IsArray irr.length T ∧ Symmetric irr G T) →
    ∀ T ∈ C.array, SameEntries irr T fun σ => (B.array.map fun t => inner irr t T * t σ).sum

theorem mem_blocks_ir {B : IArr Ten} {ir : Irrep} : ir ∈ B.blocks.map Prod.fst ↔ ∃ m ∈ B.irreps, m.mul ≠ 0 ∧ m.ir = ir := by
  rw [blocks_irs]
  unfold E3nn.expand
  rw [List.mem_flatMap]
  constructor
  · rintro ⟨m, hm, h⟩
    rw [List.mem_replicate] at h
    exact ⟨m, hm, h.1, h.2.symm⟩
  · rintro ⟨m, hm, h, rfl⟩
    exact ⟨m, hm, List.mem_replicate.mpr ⟨h, rfl⟩⟩

theorem Kept.basis {irr : List Irreps} {G : Finset SPerm} {l : List Irrep} {B : IArr Ten} (hG : IsSGroup irr.length G) (hI : SameIrreps irr G) (hm : irr.length ≠ 1 ∨ (-1, [0]) ∉ G)
    (h : Kept irr G (some l) B) : KeptBasis irr G l B := by
  have k := h.kb.sym hG hm
  have e : B.blocks.flatMap Prod.snd = B.array := by rw [List.flatMap_def, h.inv.array_eq_blocks]
  have hon : ∀ t ∈ B.array, On (List.range irr.length) t := fun t ht => k.on t (by rw [e]; exact ht)
  refine ⟨?_, fun t ht σ τ h => hon t ht σ τ fun i hi => h i (List.mem_range.mp hi), ?_, ?_, ?_, ?_⟩
  · intro m hm h0
    obtain ⟨p, hp, h1⟩ := List.mem_map.mp (mem_blocks_ir.mpr ⟨m, hm, h0, rfl⟩)
    have := h.kept p hp
    rw [out_some, not_not, h1] at this
    exact this
  · obtain ⟨A', -, -, o, -⟩ := k
    rw [List.flatMap_append, e] at o
    intro i hi j hj
    rw [inner_axSum irr (hon _ (List.getElem_mem hi)) (hon _ (List.getElem_mem hj)) 0]
    have hp := List.pairwise_iff_getElem.mp (List.pairwise_append.mp o.pair).1
    rcases lt_trichotomy i j with h | h | h
    · rw [hp i j hi hj h, if_neg (by omega)]; rfl
    · subst h; rw [o.norm _ (List.mem_append_left _ (List.getElem_mem hi)), if_pos rfl]; rfl
    · rw [mul_comm, hp j i hj hi h, if_neg (by omega)]; rfl
  · intro t ht
    exact k.symm' t (by rw [e]; exact ht)
  · exact Good.equivariant ⟨h.inv, k.good⟩
  · intro C hC hl hs T hT
    have g := good_of_equivariant hC fun t ht => (hs t ht).1
    have eC : C.blocks.flatMap Prod.snd = C.array := by rw [List.flatMap_def, g.1.array_eq_blocks]
    rw [← eC] at hT hs
    obtain ⟨p, hp, hT⟩ := List.mem_flatMap.mp hT
    rw [← e]
    refine k.sums hG hI (g.2 p hp) ?_ (fun t ht => (hs t (List.mem_flatMap.mpr ⟨p, hp, ht⟩)).2) T hT
    rw [out_some, not_not]
    obtain ⟨m, h1, h2, h3⟩ := mem_blocks_ir.mp (List.mem_map_of_mem (f := Prod.fst) hp)
    rw [← h3]
    exact hl m h1 h2

theorem kept_of_basis {eigh : Eigh} (hE : EighOk eigh) {eps : ℝ} (h0 : 0 < eps) (h1 : eps ≤ 1) {flag : Bool} {irr : List Irreps} {G : Finset SPerm}
    (hG : IsSGroup irr.length G) (hI : SameIrreps irr G) (hd : ∀ x ∈ irr, x.dim ≠ 0) (hs : 4 * ((irr.map Irreps.dim).prod : ℝ) * eps ^ 2 < 1) {fuel : ℕ} {keep : Option (List Irrep)} {B : IArr Ten}
    (h : basis eigh eps (optimized eigh eps) flag fuel irr G keep = some (.ok B)) : Kept irr G keep B :=
  basis_kept hE h0 h1 (fun _ _ => True) (fun _ _ _ _ _ _ => trivial) (fun irr G keep y _ hP hu hy => optimized_kept hE h0 h1 hP hu hy) trivial ⟨hG, hI, hd, hs⟩ h

/-- **C105.** `reduced_tensor_product_basis(..., keep_ir=l)`, with `_use_optimized_implementation` on (the default) or off: what is returned is an
orthonormal basis of the part of the arrays with the symmetries `G` that transforms with irreps of `l`; the intermediate filters lose nothing. -/
theorem C105_keep {eigh : Eigh} (hE : EighOk eigh) {eps : ℝ} (h0 : 0 < eps) (h1 : eps ≤ 1) (flag : Bool) (irr : List Irreps) (G : Finset SPerm)
    (hG : IsSGroup irr.length G) (hI : SameIrreps irr G) (hd : ∀ x ∈ irr, x.dim ≠ 0) (hs : 4 * ((irr.map Irreps.dim).prod : ℝ) * eps ^ 2 < 1)
    (hm : irr.length ≠ 1 ∨ (-1, [0]) ∉ G) (fuel : ℕ) (l : List Irrep) (B : IArr Ten)
    (h : basis eigh eps (optimized eigh eps) flag fuel irr G (some l) = some (.ok B)) : KeptBasis irr G l B :=
  (kept_of_basis hE h0 h1 hG hI hd hs h).basis hG hI hm

/-- **C105 (multiplicities).** Every irrep of `l` occurs in the result as often as in the result without `keep_ir`. -/
theorem C105_count {eigh : Eigh} (hE : EighOk eigh) {eps : ℝ} (h0 : 0 < eps) (h1 : eps ≤ 1) (flag flag' : Bool) (irr : List Irreps) (G : Finset SPerm)
    (hG : IsSGroup irr.length G) (hI : SameIrreps irr G) (hd : ∀ x ∈ irr, x.dim ≠ 0) (hs : 4 * ((irr.map Irreps.dim).prod : ℝ) * eps ^ 2 < 1)
    (hm : irr.length ≠ 1 ∨ (-1, [0]) ∉ G) (fuel fuel' : ℕ) (l : List Irrep) (B F : IArr Ten)
    (h : basis eigh eps (optimized eigh eps) flag fuel irr G (some l) = some (.ok B))
    (h' : basis eigh eps (optimized eigh eps) flag' fuel' irr G none = some (.ok F)) (ir : Irrep) :
    B.irreps.count ir = if ir ∈ l then F.irreps.count ir else 0 := by
  have kB := kept_of_basis hE h0 h1 hG hI hd hs h
  have kF := kept_of_basis hE h0 h1 hG hI hd hs h'
  rw [Irreps.count_eq_count_expand, Irreps.count_eq_count_expand, ← blocks_irs, ← blocks_irs]
  split
  · rename_i hl
    exact (kB.kb.sym hG hm).count hG hI (kF.kb.sym hG hm) (by rw [out_some, not_not]; exact hl) (not_out_none _)
  · rename_i hl
    rw [List.count_eq_zero]
    intro hmem
    obtain ⟨p, hp, rfl⟩ := List.mem_map.mp hmem
    exact kB.kept p hp (out_some.mpr hl)

/-- **C105 (returns).** Without the optimized implementation the algorithm returns for every `keep_ir`. -/
theorem C105_total {eigh : Eigh} (hE : EighOk eigh) {eps : ℝ} (h0 : 0 < eps) (h1 : eps ≤ 1) (irr : List Irreps) (G : Finset SPerm) (hne : irr ≠ [])
    (hG : IsSGroup irr.length G) (hI : SameIrreps irr G) (hd : ∀ x ∈ irr, x.dim ≠ 0) (hs : 4 * ((irr.map Irreps.dim).prod : ℝ) * eps ^ 2 < 1)
    (hm : irr.length ≠ 1 ∨ (-1, [0]) ∉ G) {fuel : ℕ} (hf : (irr.length - 1) ^ 2 + irr.length ≤ fuel) (l : List Irrep) :
    ∃ B, basis eigh eps (optimized eigh eps) false fuel irr G (some l) = some (.ok B) ∧ KeptBasis irr G l B := by
  obtain ⟨B, hB, -⟩ := C94_total eigh eps (optimized eigh eps) irr G (some l) fuel hne hG (hI.compat hG) hd hf
  exact ⟨B, hB, C105_keep hE h0 h1 false irr G hG hI hd hs hm fuel l B hB⟩

theorem KB.counts {irr : List Irreps} {G : Finset SPerm} {keep : Option (List Irrep)} {A B : List (Irrep × List Ten)} (hG : IsSGroup irr.length G) (hI : SameIrreps irr G)
    (hA : KB irr G (List.range irr.length) keep True A) (hB : KB irr G (List.range irr.length) keep True B) (oA : ∀ p ∈ A, ¬ Out keep p.1) (oB : ∀ p ∈ B, ¬ Out keep p.1) (ir : Irrep) :
    (A.map Prod.fst).count ir = (B.map Prod.fst).count ir := by
  by_cases h : Out keep ir
  · have hz : ∀ {A : List (Irrep × List Ten)}, (∀ p ∈ A, ¬ Out keep p.1) → (A.map Prod.fst).count ir = 0 := by
      intro A oA
      rw [List.count_eq_zero]
      intro hmem
      obtain ⟨p, hp, rfl⟩ := List.mem_map.mp hmem
      exact oA p hp h
    rw [hz oA, hz oB]
  · exact hA.count hG hI hB h h

/-- **C105 (the default).** For the symmetric power of at least two irreps the optimized implementation (the default) returns if and only if an
irrep of `l` occurs in the symmetric power; else it raises, where the general algorithm returns an array without columns. -/
theorem C105_optimized {eigh : Eigh} (hE : EighOk eigh) {eps : ℝ} (h0 : 0 < eps) (h1 : eps ≤ 1) (irreps : Irreps) (n : ℕ) (hn : 1 < n) (hirr : 1 < irreps.numIrreps)
    (hs : 4 * ((irreps.dim : ℝ) ^ n) * eps ^ 2 < 1) {fuel : ℕ} (hf : (n - 1) ^ 2 + n ≤ fuel) (l : List Irrep) :
    ∃ A, symmetricBasis eigh eps (optimized eigh eps) false fuel irreps n (some l) = some (.ok A) ∧ KeptBasis (List.replicate n irreps) (symmetricPermRepr n) l A ∧
      (A.irreps.dim ≠ 0 → ∃ B, symmetricBasis eigh eps (optimized eigh eps) true fuel irreps n (some l) = some (.ok B) ∧
        KeptBasis (List.replicate n irreps) (symmetricPermRepr n) l B ∧ ∀ ir, B.irreps.count ir = A.irreps.count ir) ∧
      (A.irreps.dim = 0 → symmetricBasis eigh eps (optimized eigh eps) true fuel irreps n (some l) = some (.error .valueError)) := by
  have hG : IsSGroup (List.replicate n irreps).length (symmetricPermRepr n) := by rw [List.length_replicate]; exact symmetric_group
  have hI : SameIrreps (List.replicate n irreps) (symmetricPermRepr n) := same_replicate symmetric_group irreps
  have hdim : irreps.dim ≠ 0 := by
    intro h
    have h2 := expand_of_dim_zero h
    have : (singles irreps).length = 0 := by
      rw [singles_eq, h2]; rfl
    rw [singles_length] at this
    omega
  have hd : ∀ x ∈ List.replicate n irreps, x.dim ≠ 0 := fun x hx => by rw [List.eq_of_mem_replicate hx]; exact hdim
  have hs' : 4 * (((List.replicate n irreps).map Irreps.dim).prod : ℝ) * eps ^ 2 < 1 := by rw [List.map_replicate, List.prod_replicate]; push_cast; exact hs
  have hm : (List.replicate n irreps).length ≠ 1 ∨ (-1, [0]) ∉ symmetricPermRepr n := Or.inl (by rw [List.length_replicate]; omega)
  have hP : Pre eps (List.replicate n irreps) (symmetricPermRepr n) := ⟨hG, hI, hd, hs'⟩
  have hhead : (List.replicate n irreps).headD [] = irreps := by
    cases n with
    | zero => omega
    | succ n => rfl
  have hu : useOptimized true (List.replicate n irreps) (symmetricPermRepr n) = true := by
    rw [useOptimized_iff, hhead, List.length_replicate]
    exact ⟨rfl, rfl, hn, hirr⟩
  obtain ⟨A, hA, kA⟩ := C105_total hE h0 h1 (List.replicate n irreps) (symmetricPermRepr n) (by simp; omega) hG hI hd hs' hm (fuel := fuel) (by rw [List.length_replicate]; exact hf) l
  have kA' := kept_of_basis hE h0 h1 hG hI hd hs' hA
  have hb : basis eigh eps (optimized eigh eps) true fuel (List.replicate n irreps) (symmetricPermRepr n) (some l) = some (optimized eigh eps irreps n (some l)) := by
    unfold basis start
    rw [if_pos hu, hhead, List.length_replicate]
  obtain ⟨L, k, o, c⟩ := optimized_cases hE h0 h1 hP hu (some l)
  rw [hhead, List.length_replicate] at c
  rw [List.length_replicate] at k
  have hc := fun ir => (kA'.kb.sym hG hm).counts hG hI (by rw [List.length_replicate]; exact k) kA'.kept o ir
  have hperm : (A.blocks.map Prod.fst).Perm (L.map Prod.fst) := List.perm_iff_count.mpr hc
  have hAd : A.irreps.dim = 0 ↔ L = [] := by
    constructor
    · intro h
      have h2 := expand_of_dim_zero h
      rw [← blocks_irs] at h2
      rw [h2] at hperm
      exact List.map_eq_nil_iff.mp hperm.nil_eq.symm
    · rintro rfl
      have h2 := hperm.eq_nil
      rw [Irreps.dim_eq_dimOf_expand, ← blocks_irs, h2]; rfl
  refine ⟨A, hA, kA, ?_, ?_⟩
  · intro hne
    rcases c with ⟨c, -⟩ | ⟨y, c1, c2, c3, -⟩
    · exact absurd (hAd.mpr c) hne
    · have hB : basis eigh eps (optimized eigh eps) true fuel (List.replicate n irreps) (symmetricPermRepr n) (some l) = some (.ok y) := by rw [hb, c1]
      refine ⟨y, hB, C105_keep hE h0 h1 true _ _ hG hI hd hs' hm fuel l y hB, fun ir => ?_⟩
      rw [Irreps.count_eq_count_expand, Irreps.count_eq_count_expand, ← blocks_irs, ← blocks_irs]
      exact ((c3.map Prod.fst).trans hperm.symm).count_eq ir
  · intro h
    rcases c with ⟨-, c⟩ | ⟨y, -, -, -, c⟩
    · show basis _ _ _ _ _ _ _ _ = _
      rw [hb, c]
    · exact absurd (hAd.mp h) c

/-- The part `1o` of the symmetric tensors of degree three of `0e + 2x1o`, with the default tolerance: it is not empty, and the two implementations agree. -/
example : ∃ (eigh : Eigh) (A B : IArr Ten), EighOk eigh ∧ symmetricBasis eigh 0.00001 (optimized eigh 0.00001) false 7 [⟨1, ⟨0, .e⟩⟩, ⟨2, ⟨1, .o⟩⟩] 3 (some [⟨1, .o⟩]) = some (.ok A) ∧
    (A.irreps.dim ≠ 0 → symmetricBasis eigh 0.00001 (optimized eigh 0.00001) true 7 [⟨1, ⟨0, .e⟩⟩, ⟨2, ⟨1, .o⟩⟩] 3 (some [⟨1, .o⟩]) = some (.ok B) ∧ B.irreps.count ⟨1, .o⟩ = A.irreps.count ⟨1, .o⟩) := by
  obtain ⟨eigh, hE⟩ := exists_eigh
  obtain ⟨A, h1, -, h2, -⟩ := C105_optimized hE (eps := 0.00001) (by norm_num) (by norm_num) [⟨1, ⟨0, .e⟩⟩, ⟨2, ⟨1, .o⟩⟩] 3 (by norm_num) (by decide) (by
    have : Irreps.dim [⟨1, ⟨0, .e⟩⟩, ⟨2, ⟨1, .o⟩⟩] = 7 := by decide
    rw [this]; norm_num) (fuel := 7) (by simp) [⟨1, .o⟩]
  by_cases h : A.irreps.dim = 0
  · exact ⟨eigh, A, A, hE, h1, fun h' => absurd h h'⟩
  · obtain ⟨B, b1, -, b3⟩ := h2 h
    exact ⟨eigh, A, B, hE, h1, fun _ => ⟨b1, b3 _⟩⟩

/-- No pseudoscalar can be made of two of the irreps `0e`, `1o`. -/
theorem no_pseudoscalar : ¬ Poss [[⟨0, .e⟩, ⟨1, .o⟩], [⟨0, .e⟩, ⟨1, .o⟩]] ⟨0, .o⟩ := by
  rintro ⟨a, ha, b, ⟨c, hc, d, hd, hb⟩, hx⟩
  have hd : d = ⟨0, .e⟩ := hd
  subst hd
  rw [mem_mul] at hb hx
  obtain ⟨bl, bp⟩ := b
  simp only [List.mem_cons, List.not_mem_nil, or_false] at ha hc
  rcases ha with rfl | rfl <;> rcases hc with rfl | rfl <;> cases bp <;> simp [Parity.mul] at hb hx <;> omega

/-- Nothing is kept: the symmetric square of `0e + 1o` contains no `0o`. The optimized implementation (the default) raises, the general algorithm
returns an array without columns. -/
theorem C105_raises {eigh : Eigh} (hE : EighOk eigh) :
    (∃ A, symmetricBasis eigh 0.00001 (optimized eigh 0.00001) false 3 [⟨1, ⟨0, .e⟩⟩, ⟨1, ⟨1, .o⟩⟩] 2 (some [⟨0, .o⟩]) = some (.ok A) ∧ A.array = []) ∧
      symmetricBasis eigh 0.00001 (optimized eigh 0.00001) true 3 [⟨1, ⟨0, .e⟩⟩, ⟨1, ⟨1, .o⟩⟩] 2 (some [⟨0, .o⟩]) = some (.error .valueError) := by
  have hdim : Irreps.dim [⟨1, ⟨0, .e⟩⟩, ⟨1, ⟨1, .o⟩⟩] = 4 := by decide
  obtain ⟨A, h1, h2, -, h3⟩ := C105_optimized hE (eps := 0.00001) (by norm_num) (by norm_num) [⟨1, ⟨0, .e⟩⟩, ⟨1, ⟨1, .o⟩⟩] 2 (by norm_num) (by decide) (by
    rw [hdim]; norm_num) (fuel := 3) (by simp) [⟨0, .o⟩]
  have k : Kept (List.replicate 2 [⟨1, ⟨0, .e⟩⟩, ⟨1, ⟨1, .o⟩⟩]) (symmetricPermRepr 2) (some [⟨0, .o⟩]) A :=
    kept_of_basis hE (eps := 0.00001) (by norm_num) (by norm_num) (by rw [List.length_replicate]; exact symmetric_group) (same_replicate symmetric_group _)
      (fun x hx => by rw [List.eq_of_mem_replicate hx, hdim]; simp) (by rw [List.map_replicate, List.prod_replicate, hdim]; norm_num) h1
  have hz : A.irreps.dim = 0 := by
    rw [Irreps.dim_eq_dimOf_expand, ← blocks_irs]
    have : A.blocks = [] := by
      rw [List.eq_nil_iff_forall_not_mem]
      intro p hp
      have h4 := k.kept p hp
      rw [out_some, not_not, List.mem_singleton] at h4
      obtain ⟨A', h5, -⟩ := k.kb
      have h6 := (h5 p (by simp [hp])).2
      rw [h4] at h6
      exact no_pseudoscalar h6
    rw [this]; rfl
  refine ⟨⟨A, h1, ?_⟩, h3 hz⟩
  have := h2.equivariant.1.array_length
  rw [← List.length_eq_zero_iff, this, ← Irreps.dim_eq_dimOf_expand, hz]

end E3nn.RTP

import Verif.Lemmas.RTPConstrain
import Verif.Lemmas.RTPPlace
import Verif.Props.C94b
import Verif.Props.C93

/-!
# C95: the columns of `reduced_tensor_product_basis` are an orthonormal basis of the tensors with the symmetries of the formula
-/

namespace E3nn.RTP

open E3nn.IArr E3nn.LinAlg E3nn.PermRepr E3nn.Wig E3nn.Perm

/-- What the induction needs. -/
structure Pre (eps : ℝ) (irr : List Irreps) (G : Finset SPerm) : Prop where
  group : IsSGroup irr.length G
  same : SameIrreps irr G
  pos : ∀ x ∈ irr, x.dim ≠ 0
  small : 4 * ((irr.map Irreps.dim).prod : ℝ) * eps ^ 2 < 1

theorem prod_sub_le {irr : List Irreps} (h0 : ∀ x ∈ irr, x.dim ≠ 0) {f : List ℕ} (hf : f.Pairwise (· < ·)) (hlt : ∀ i ∈ f, i < irr.length) :
    ((f.map fun k => irr.getD k []).map Irreps.dim).prod ≤ (irr.map Irreps.dim).prod := by
  have e1 : (f.map fun k => irr.getD k []).map Irreps.dim = f.map (axisDim irr) := by rw [List.map_map]; rfl
  have e2 : irr.map Irreps.dim = (List.range irr.length).map (axisDim irr) := by
    apply List.ext_getElem (by simp)
    intro i h1 h2
    rw [List.length_map] at h1
    rw [List.getElem_map, List.getElem_map, List.getElem_range, axisDim, List.getD_eq_getElem _ _ h1]
  rw [e1, e2, ← List.prod_toFinset _ (hf.imp Nat.ne_of_lt), ← List.prod_toFinset _ List.nodup_range]
  refine Finset.prod_le_prod_of_subset_of_one_le' ?_ ?_
  · intro i hi
    rw [List.mem_toFinset] at hi ⊢
    exact List.mem_range.mpr (hlt i hi)
  · intro i hi _
    rw [List.mem_toFinset, List.mem_range] at hi
    have := h0 (irr[i]) (List.getElem_mem hi)
    rw [axisDim, List.getD_eq_getElem _ _ hi]
    omega

theorem Pre.sub {eps : ℝ} {irr : List Irreps} {G : Finset SPerm} (h : Pre eps irr G) {f : List ℕ} (hf : f.Pairwise (· < ·)) (hlt : ∀ i ∈ f, i < irr.length) :
    Pre eps (f.map fun k => irr.getD k []) (subrepr f G) := by
  refine ⟨?_, h.same.sub h.group hf hlt, ?_, lt_of_le_of_lt ?_ h.small⟩
  · rw [List.length_map]; exact subrepr_group h.group hlt hf
  · intro x hx
    obtain ⟨i, hi, rfl⟩ := List.mem_map.mp hx
    have hi' := hlt i hi
    simp only [List.getD_eq_getElem _ _ hi']
    exact h.pos _ (List.getElem_mem hi')
  · have := prod_sub_le h.pos hf hlt
    have : (((f.map fun k => irr.getD k []).map Irreps.dim).prod : ℝ) ≤ ((irr.map Irreps.dim).prod : ℝ) := by exact_mod_cast this
    gcongr

theorem OBasis.regroup {irr : List Irreps} {G : Finset SPerm} {f : List ℕ} {b y : IArr Ten} (h : OBasis irr G f (b.blocks.flatMap Prod.snd)) (hi : Inv b) (hy : b.regroup = .ok y) :
    OBasis irr G f (y.blocks.flatMap Prod.snd) ∧ ∀ z, z ∈ y.blocks.flatMap Prod.snd → z ∈ b.blocks.flatMap Prod.snd := by
  obtain ⟨z, z1, z2, z3, -⟩ := C17_regroup b hi.coherent
  rw [hy] at z1; cases z1
  have hp := List.Perm.flatMap_right Prod.snd z3
  exact ⟨h.perm hp, fun z hz => hp.mem_iff.mp hz⟩

theorem subKeep_none (irr : List Irreps) (f : List ℕ) : subKeep irr f none = none := by
  unfold subKeep
  generalize irr.zipIdx = l
  induction l with
  | nil => rfl
  | cons q l ih => rw [List.foldl_cons]; split <;> exact ih

theorem symm_of_card_one {irr : List Irreps} {G : Finset SPerm} (hG : IsSGroup irr.length G) (hc : G.card = 1) (t : Ten) : Symm irr G t := by
  obtain ⟨a, ha⟩ := Finset.card_eq_one.mp hc
  intro q hq σ _
  have h1 := hG.one
  rw [ha, Finset.mem_singleton] at hq h1
  rw [hq, ← h1, pact_id]
  simp

/-- `Q` is what is known about the irreps and the symmetries in all calls. -/
theorem basis_obasis {eigh : Eigh} (hE : EighOk eigh) {eps : ℝ} (h0 : 0 < eps) (h1 : eps ≤ 1) {opt : Optimized} {flag : Bool} (Q : List Irreps → Finset SPerm → Prop)
    (hQ : ∀ irr G f, Q irr G → f.Pairwise (· < ·) → (∀ i ∈ f, i < irr.length) → Q (f.map fun k => irr.getD k []) (subrepr f G))
    (hopt : ∀ irr G y, Q irr G → Pre eps irr G → useOptimized flag irr G = true → opt (irr.headD []) irr.length none = .ok y →
      Good irr (List.range irr.length) y ∧ OBasis irr G (List.range irr.length) (y.blocks.flatMap Prod.snd) ∧ ∀ z ∈ y.blocks.flatMap Prod.snd, Symm irr G z)
    {fuel : ℕ} {irr : List Irreps} {G : Finset SPerm} {y : IArr Ten}
    (hq : Q irr G) (hP : Pre eps irr G) (h : basis eigh eps opt flag fuel irr G none = some (.ok y)) :
    Good irr (List.range irr.length) y ∧ OBasis irr G (List.range irr.length) (y.blocks.flatMap Prod.snd) ∧
      (irr.length ≠ 1 → ∀ z ∈ y.blocks.flatMap Prod.snd, Symm irr G z) := by
  refine basis_ind (fun irr G keep y => keep = none → Q irr G → Pre eps irr G → Good irr (List.range irr.length) y ∧ OBasis irr G (List.range irr.length) (y.blocks.flatMap Prod.snd) ∧
      (irr.length ≠ 1 → ∀ z ∈ y.blocks.flatMap Prod.snd, Symm irr G z))
    (fun irr G keep f b => keep = none → Q irr G → Pre eps irr G → Good irr f b ∧ OBasis irr G f (b.blocks.flatMap Prod.snd))
    (fun i irreps => by obtain ⟨b, h, -⟩ := identityBasis_spec i irreps; exact ⟨b, h⟩) ?_ ?_ ?_ ?_ ?_ fuel irr G none y h rfl hq hP
  · intro irr G keep y hu hy hk hq hP
    subst hk
    obtain ⟨g, o, s⟩ := hopt irr G y hq hP hu hy
    exact ⟨g, o, fun _ => s⟩
  · intro irr G keep i b hi hb _ _ _
    refine ⟨identity_good irr hb, ?_⟩
    obtain ⟨y, y1, y2, y3, y4⟩ := identityBasis_spec i (irr.getD i [])
    rw [hb] at y1; cases y1
    rw [List.flatMap_def, y2.array_eq_blocks, y4]
    exact identity_obasis irr G hi
  · intro irr G keep b y hn hb hy hk hq hP
    subst hk
    obtain ⟨g, o⟩ := hb rfl hq hP
    rw [hn]
    unfold finishOne at hy
    rw [if_neg (by simp)] at hy
    simp only [bind, Except.bind] at hy
    exact ⟨g.regroup hy, (o.regroup g.1 hy).1, fun h => absurd rfl h⟩
  · intro irr G keep a b y ha hb na nb hp ga gb hy hk hq hP
    subst hk
    obtain ⟨ga, oa⟩ := ga rfl hq hP
    obtain ⟨gb, ob⟩ := gb rfl hq hP
    have hnd : (a.1 ++ b.1).Nodup := hp.nodup_iff.mpr List.nodup_range
    have hdis : ∀ i ∈ a.1, i ∉ b.1 := fun i hi hj => (List.nodup_append.mp hnd).2.2 i hi i hj rfl
    obtain ⟨ab, ab1, ab2, ab3⟩ := reduceBasisProduct_spec none ga.1 gb.1
    have gab : Good irr (List.range irr.length) ab :=
      ⟨ab2, fun p hq => (products_good hdis none ga.2 gb.2 p (ab3.mem_iff.mp hq)).perm hp⟩
    have oab : OBasis irr G (List.range irr.length) (ab.blocks.flatMap Prod.snd) :=
      ((products_obasis hP.group hdis ga.2 gb.2 oa ob).perm (List.Perm.flatMap_right Prod.snd ab3)).perm_axes hp
    have hlt : ∀ i ∈ a.1 ++ b.1, i < irr.length := fun i hi => List.mem_range.mp (hp.mem_iff.mp hi)
    have hu : union irr.length a.1 b.1 = List.range irr.length :=
      sorted_eq_range (union_sorted _ _ _) ((union_perm (fun i hi => hlt i (by simp [hi])) (fun i hi => hlt i (by simp [hi])) hnd).trans hp)
    unfold finishTwo at hy
    simp only [bind, Except.bind, ab1, hu] at hy
    split at hy
    · rename_i hc
      rw [subrepr_range hP.group] at hc
      exact ⟨gab.regroup hy, (oab.regroup ab2 hy).1, fun _ z _ => symm_of_card_one hP.group hc z⟩
    · rename_i hc
      split at hy
      · cases hy
      · obtain ⟨Q, Q1, Q2⟩ := reduceSubgroup_range hP.group (by simp) (hP.same.compat hP.group)
        rw [Q1] at hy
        simp only at hy
        obtain ⟨z, z1, z2, z3⟩ := constrain_spec eigh eps (irr.map Irreps.dim) (x := ab) Q
        rw [z1] at hy
        obtain ⟨c1, c2⟩ := constrain_obasis hE h0 h1 hP.small hP.group hP.same (Q2 hc) ab2 gab.2 oab z3
        obtain ⟨r1, r2⟩ := c1.regroup z2 hy
        refine ⟨Good.regroup ⟨z2, ?_⟩ hy, r1, fun _ z hz => c2 z (r2 z hz)⟩
        intro q hq
        rw [z3] at hq
        obtain ⟨ir, -, hq⟩ := List.mem_flatMap.mp hq
        obtain ⟨r, hr, rfl⟩ := List.mem_map.mp hq
        refine mix_good ?_ (by simp [firstComponents]) _ r hr
        intro r' hr'
        rw [rotBasis_blocks ab2] at hr'
        obtain ⟨q', hq', rfl⟩ := List.mem_map.mp hr'
        obtain ⟨m1, m2⟩ := List.mem_filter.mp hq'
        have := gab.2 q' m1
        rw [decide_eq_true_iff] at m2
        rw [← m2]; exact this
  · intro irr G keep f ab ab' hf hlt h2 hab hm hk hq hP
    subst hk
    obtain ⟨g, o, -⟩ := hab (subKeep_none _ _) (hQ irr G f hq hf hlt) (hP.sub hf hlt)
    rw [List.length_map] at g o
    obtain ⟨z, z1, z2, z3, z4⟩ := mapCols_blocks (φ := place f) rfl g.1
    rw [hm] at z1; cases z1
    refine ⟨⟨z2, fun p hp => ?_⟩, ?_⟩
    · rw [z4] at hp
      obtain ⟨q, hq, rfl⟩ := List.mem_map.mp hp
      exact place_good (hf.imp Nat.ne_of_lt) (g.2 q hq)
    · have e : ab'.blocks.flatMap Prod.snd = (ab.blocks.flatMap Prod.snd).map (place f) := by
        rw [z4, List.flatMap_map, List.map_flatMap]
      rw [e]
      refine place_obasis hP.group hf hlt ?_ o
      intro x hx
      obtain ⟨q, hq, hx⟩ := List.mem_flatMap.mp hx
      exact (g.2 q hq).on x hx

/-- An array as `numpy` has it: the entries depend on the `n` indices only. -/
def IsArray (n : ℕ) (t : Ten) : Prop := ∀ σ τ : ℕ → ℕ, (∀ i < n, σ i = τ i) → t σ = t τ

/-- `B` is an orthonormal basis of the arrays of shape `(d1, ..., dn)` with the symmetries of `G`: its columns have unit length, are
orthogonal, have the symmetries, and every array with the symmetries is the sum of its components along the columns. -/
structure OrthonormalBasis (irr : List Irreps) (G : Finset SPerm) (B : List Ten) : Prop where
  orthonormal : ∀ i (hi : i < B.length) j (hj : j < B.length), inner irr B[i] B[j] = if i = j then 1 else 0
  symmetric : ∀ t ∈ B, Symmetric irr G t
  complete : ∀ T : Ten, IsArray irr.length T → Symmetric irr G T → SameEntries irr T fun σ => (B.map fun t => inner irr t T * t σ).sum

theorem OrthonormalBasis.of_obasis {irr : List Irreps} {G : Finset SPerm} {B : IArr Ten} (hG : IsSGroup irr.length G) (hm : irr.length ≠ 1 ∨ (-1, [0]) ∉ G)
    (g : Good irr (List.range irr.length) B) (o : OBasis irr G (List.range irr.length) (B.blocks.flatMap Prod.snd)) (s : irr.length ≠ 1 → ∀ z ∈ B.blocks.flatMap Prod.snd, Symm irr G z) :
    OrthonormalBasis irr G B.array ∧ Equivariant irr B ∧ ∀ t ∈ B.array, IsArray irr.length t := by
  have e : B.blocks.flatMap Prod.snd = B.array := by rw [List.flatMap_def, g.1.array_eq_blocks]
  have hon : ∀ t ∈ B.array, On (List.range irr.length) t := by
    intro t ht
    rw [← e] at ht
    obtain ⟨q, hq, hx⟩ := List.mem_flatMap.mp ht
    exact (g.2 q hq).on t hx
  rw [e] at o s
  refine ⟨⟨?_, ?_, ?_⟩, g.equivariant, fun t ht σ τ h => hon t ht σ τ fun i hi => h i (List.mem_range.mp hi)⟩
  · intro i hi j hj
    rw [inner_axSum irr (hon _ (List.getElem_mem hi)) (hon _ (List.getElem_mem hj)) 0]
    have hp := List.pairwise_iff_getElem.mp o.pair
    rcases lt_trichotomy i j with h | h | h
    · rw [hp i j hi hj h, if_neg (by omega)]; rfl
    · subst h; rw [o.norm _ (List.getElem_mem hi), if_pos rfl]; rfl
    · rw [mul_comm, hp j i hj hi h, if_neg (by omega)]; rfl
  · intro t ht q hq σ hσ
    by_cases hn : irr.length = 1
    · have hn1 := hm.resolve_left (not_not.mpr hn)
      have hp := hG.perm q hq
      rw [hn] at hp
      have e2 : q.2 = [0] := List.perm_singleton.mp hp
      rcases hG.sign q hq with h | h
      · rw [h, e2]
        have : (fun i => σ ([0].getD i i)) = σ := by
          funext i
          cases i with
          | zero => rfl
          | succ i => rfl
        rw [this]; simp
      · exact absurd (by rw [← h, ← e2]; exact hq) hn1
    · exact s hn t ht q hq σ hσ
  · intro T hA hT σ hσ
    have hA' : On (List.range irr.length) T := fun σ τ h => hA σ τ fun i hi => h i (List.mem_range.mpr hi)
    rw [o.complete T ((symOn_iff hG).mpr fun q hq σ hσ => hT q hq σ hσ) σ hσ]
    unfold expansion
    congr 1
    apply List.map_congr_left
    intro t ht
    rw [mul_comm, inner_axSum irr (hon t ht) hA' σ]

/-- **C95.** For every `eigh` that returns the eigenvectors of symmetric matrices, every list of irreps, every group `G` of symmetries
that exchanges only indices with the same irreps and every number of indices other than one: without `keep_ir`, the columns of the
returned `IrrepsArray` are an orthonormal basis of the arrays with the symmetries `G`, and transform as the irreps say. -/
theorem C95_basis {eigh : Eigh} (hE : EighOk eigh) {eps : ℝ} (h0 : 0 < eps) (h1 : eps ≤ 1) (opt : Optimized) (fuel : ℕ) (irr : List Irreps) (G : Finset SPerm) (B : IArr Ten)
    (hG : IsSGroup irr.length G) (hI : SameIrreps irr G) (hd : ∀ x ∈ irr, x.dim ≠ 0) (hs : 4 * ((irr.map Irreps.dim).prod : ℝ) * eps ^ 2 < 1)
    (hm : irr.length ≠ 1 ∨ (-1, [0]) ∉ G) (h : basis eigh eps opt false fuel irr G none = some (.ok B)) :
    OrthonormalBasis irr G B.array ∧ Equivariant irr B ∧ ∀ t ∈ B.array, IsArray irr.length t := by
  obtain ⟨g, o, s⟩ := basis_obasis hE h0 h1 (fun _ _ => True) (fun _ _ _ _ _ _ => trivial) (fun irr G y _ _ hu => by simp [useOptimized] at hu) trivial ⟨hG, hI, hd, hs⟩ h
  exact OrthonormalBasis.of_obasis hG hm g o s

/-- The two parts together: with at least one index the algorithm returns, and what it returns is such a basis. -/
theorem C95_total {eigh : Eigh} (hE : EighOk eigh) {eps : ℝ} (h0 : 0 < eps) (h1 : eps ≤ 1) (opt : Optimized) (irr : List Irreps) (G : Finset SPerm) (hne : irr ≠ [])
    (hG : IsSGroup irr.length G) (hI : SameIrreps irr G) (hd : ∀ x ∈ irr, x.dim ≠ 0) (hs : 4 * ((irr.map Irreps.dim).prod : ℝ) * eps ^ 2 < 1)
    (hm : irr.length ≠ 1 ∨ (-1, [0]) ∉ G) {fuel : ℕ} (hf : (irr.length - 1) ^ 2 + irr.length ≤ fuel) :
    ∃ B, basis eigh eps opt false fuel irr G none = some (.ok B) ∧ OrthonormalBasis irr G B.array ∧ Equivariant irr B := by
  obtain ⟨B, hB, -⟩ := C94_total eigh eps opt irr G none fuel hne hG (hI.compat hG) hd hf
  obtain ⟨o, e, -⟩ := C95_basis hE h0 h1 opt fuel irr G B hG hI hd hs hm hB
  exact ⟨B, hB, o, e⟩

theorem inner_comm (irr : List Irreps) (s t : Ten) : inner irr s t = inner irr t s := by
  unfold inner; simp only [mul_comm]

theorem inner_sum_right (irr : List Irreps) (s : Ten) (B : List Ten) (c : Ten → ℝ) :
    inner irr s (fun σ => (B.map fun t => c t * t σ).sum) = (B.map fun t => inner irr s t * c t).sum := by
  unfold inner
  have e : ∀ x : List ℕ, s (fun i => x.getD i 0) * (B.map fun t => c t * t fun i => x.getD i 0).sum =
      (B.map fun t => s (fun i => x.getD i 0) * t (fun i => x.getD i 0) * c t).sum := by
    intro x
    rw [← List.sum_map_mul_left]
    congr 1
    apply List.map_congr_left
    intro t _
    ring
  simp only [e]
  rw [list_sum_comm]
  congr 1
  apply List.map_congr_left
  intro t _
  rw [List.sum_map_mul_right]

/-- The number of columns does not depend on the order of the steps, the tolerance or the eigenvectors: two orthonormal bases of the
same space have the same length. -/
theorem OrthonormalBasis.length_eq {irr : List Irreps} {G : Finset SPerm} {A B : List Ten} (hA : OrthonormalBasis irr G A) (hB : OrthonormalBasis irr G B)
    (aA : ∀ t ∈ A, IsArray irr.length t) (aB : ∀ t ∈ B, IsArray irr.length t) : A.length = B.length := by
  have key : ∀ {A B : List Ten}, OrthonormalBasis irr G A → OrthonormalBasis irr G B → (∀ t ∈ A, IsArray irr.length t) →
      (A.length : ℝ) = (A.map fun a => (B.map fun b => inner irr a b * inner irr a b).sum).sum := by
    intro A B hA hB aA
    have e1 : (A.length : ℝ) = (A.map fun a => inner irr a a).sum := by
      have : (A.map fun a => inner irr a a) = A.map fun _ => (1 : ℝ) := by
        apply List.map_congr_left
        intro a ha
        obtain ⟨i, hi, rfl⟩ := List.getElem_of_mem ha
        rw [hA.orthonormal i hi i hi, if_pos rfl]
      rw [this]; simp
    rw [e1]
    congr 1
    apply List.map_congr_left
    intro a ha
    have hc := hB.complete a (aA a ha) (hA.symmetric a ha)
    have e2 : inner irr a a = inner irr a fun σ => (B.map fun t => inner irr t a * t σ).sum := by
      unfold inner
      congr 1
      apply List.map_congr_left
      intro x hx
      exact congrArg (fun c => a (idx x) * c) (hc (idx x) (idx_inR hx))
    rw [e2, inner_sum_right]
    congr 1
    apply List.map_congr_left
    intro b _
    rw [inner_comm irr b a]
  have h := key hB hA aB
  rw [list_sum_comm] at h
  have e : ∀ a b, inner irr b a * inner irr b a = inner irr a b * inner irr a b := fun a b => by rw [inner_comm irr b a]
  simp only [e] at h
  have := (key hA hB aA).trans h.symm
  exact_mod_cast this

/-- The number of columns does not depend on the eigenvectors, the tolerance or the number of turns that were allowed. -/
theorem C95_dim {eigh eigh' : Eigh} (hE : EighOk eigh) (hE' : EighOk eigh') {eps eps' : ℝ} (h0 : 0 < eps) (h1 : eps ≤ 1) (h0' : 0 < eps') (h1' : eps' ≤ 1) (opt : Optimized) (fuel fuel' : ℕ)
    (irr : List Irreps) (G : Finset SPerm) (B B' : IArr Ten)
    (hG : IsSGroup irr.length G) (hI : SameIrreps irr G) (hd : ∀ x ∈ irr, x.dim ≠ 0) (hs : 4 * ((irr.map Irreps.dim).prod : ℝ) * eps ^ 2 < 1) (hs' : 4 * ((irr.map Irreps.dim).prod : ℝ) * eps' ^ 2 < 1)
    (hm : irr.length ≠ 1 ∨ (-1, [0]) ∉ G) (h : basis eigh eps opt false fuel irr G none = some (.ok B)) (h' : basis eigh' eps' opt false fuel' irr G none = some (.ok B')) :
    B.array.length = B'.array.length := by
  obtain ⟨o, -, a⟩ := C95_basis hE h0 h1 opt fuel irr G B hG hI hd hs hm h
  obtain ⟨o', -, a'⟩ := C95_basis hE' h0' h1' opt fuel' irr G B' hG hI hd hs' hm h'
  exact o.length_eq o' a a'

/-- With one index the algorithm ignores the symmetries: for the formula `i=-i`, which only the zero tensor satisfies, it returns the
identity. -/
theorem C95_one_index (eigh : Eigh) (eps : ℝ) (opt : Optimized) :
    ∃ B, basis eigh eps opt false 1 [[⟨1, ⟨0, .e⟩⟩]] {(1, [0]), (-1, [0])} none = some (.ok B) ∧ ¬ ∀ t ∈ B.array, Symmetric [[⟨1, ⟨0, .e⟩⟩]] {(1, [0]), (-1, [0])} t := by
  obtain ⟨b, b1, b2, b3, b4⟩ := identityBasis_spec 0 [⟨1, ⟨0, .e⟩⟩]
  obtain ⟨y, y1, y2, y3, -⟩ := C17_regroup b b2.coherent
  have hy : basis eigh eps opt false 1 [[⟨1, ⟨0, .e⟩⟩]] {(1, [0]), (-1, [0])} none = some (.ok y) := by
    simp [basis, start, useOptimized, initial, loop, List.mapM_cons, List.mapM_nil, pure, Except.pure, b1, bind, Except.bind, Except.map, finishOne, y1]
  refine ⟨y, hy, fun hall => ?_⟩
  have hm : coord 0 0 ∈ y.array := by
    have hp := List.Perm.flatMap_right Prod.snd y3
    rw [List.flatMap_def, List.flatMap_def, y2.inv.array_eq_blocks, b2.array_eq_blocks, b4] at hp
    exact hp.mem_iff.mpr (by simp [Irreps.dim, MulIrrep.dim, Irrep.dim])
  have := hall _ hm (-1, [0]) (by simp) (fun _ => 0) (by intro i hi; simp only [List.length_singleton, Nat.lt_one_iff] at hi; subst hi; decide)
  norm_num [coord] at this

/-- The hypotheses hold for the totally antisymmetric tensors of three indices `2x0e + 1o` and the default tolerance. -/
example (opt : Optimized) : ∃ (eigh : Eigh) (B : IArr Ten), EighOk eigh ∧
    basis eigh 0.00001 opt false 7 (List.replicate 3 [⟨2, ⟨0, .e⟩⟩, ⟨1, ⟨1, .o⟩⟩]) (antisymmetricPermRepr 3) none = some (.ok B) ∧
      OrthonormalBasis (List.replicate 3 [⟨2, ⟨0, .e⟩⟩, ⟨1, ⟨1, .o⟩⟩]) (antisymmetricPermRepr 3) B.array := by
  obtain ⟨eigh, hE⟩ := exists_eigh
  have hs : SameIrreps (List.replicate 3 [⟨2, ⟨0, .e⟩⟩, ⟨1, ⟨1, .o⟩⟩]) (antisymmetricPermRepr 3) := by
    intro q hq i hi
    have hp := (antisymmetric_group (n := 3)).perm q hq
    rw [List.length_replicate] at hi
    have := getD_lt hp hi
    rw [List.getD_replicate _ this, List.getD_replicate _ hi]
  have hd : ∀ x ∈ List.replicate 3 ([⟨2, ⟨0, .e⟩⟩, ⟨1, ⟨1, .o⟩⟩] : Irreps), Irreps.dim x ≠ 0 := by
    intro x hx
    rw [List.eq_of_mem_replicate hx]
    decide
  have he : 4 * (((List.replicate 3 ([⟨2, ⟨0, .e⟩⟩, ⟨1, ⟨1, .o⟩⟩] : Irreps)).map Irreps.dim).prod : ℝ) * (0.00001 : ℝ) ^ 2 < 1 := by
    rw [List.map_replicate, List.prod_replicate]
    have : Irreps.dim [⟨2, ⟨0, .e⟩⟩, ⟨1, ⟨1, .o⟩⟩] = 5 := by decide
    rw [this]; norm_num
  obtain ⟨B, h1, h2, -⟩ := C95_total hE (eps := 0.00001) (by norm_num) (by norm_num) opt (List.replicate 3 [⟨2, ⟨0, .e⟩⟩, ⟨1, ⟨1, .o⟩⟩]) (antisymmetricPermRepr 3) (by simp)
    (by simpa using antisymmetric_group (n := 3)) hs hd he (Or.inl (by simp)) (fuel := 7) (by simp)
  exact ⟨eigh, B, hE, h1, h2⟩

end E3nn.RTP

import Verif.Lemmas.RTPSchur

/-! # The constraint step keeps an orthonormal basis of the symmetric arrays -/

namespace E3nn.RTP

open Finset E3nn.IArr E3nn.Wig E3nn.PermRepr E3nn.Perm E3nn.LinAlg Matrix

variable {irr : List Irreps} {G : Finset SPerm}

/-- The copies of one irrep in an orthonormal basis. -/
structure Copies (irr : List Irreps) (G : Finset SPerm) (ir : Irrep) {m : ℕ} (B : Fin m → Fin (2 * ir.l + 1) → Ten) : Prop where
  fam : ∀ u, Fam irr ir (B u)
  gram : ∀ u u' c c', axSum (axisDim irr) (List.range irr.length) (B u c * B u' c') = if u = u' ∧ c = c' then 1 else 0
  exp : ∀ u c σ, InR irr σ → avg G (B u c) σ = ∑ u', elem irr G (B u') (B u) 0 0 * B u' c σ

theorem sum_map_filter {α : Type} (l : List α) (P : α → Bool) (g : α → ℝ) (h : ∀ a ∈ l, P a = false → g a = 0) : (l.map g).sum = ((l.filter P).map g).sum := by
  induction l with
  | nil => rfl
  | cons a l ih =>
    rw [List.map_cons, List.sum_cons, ih fun b hb => h b (by simp [hb]), List.filter_cons]
    cases e : P a
    · rw [h a (by simp) e]; simp
    · simp

theorem sum_list_fin {α : Type} (l : List α) (g : α → ℝ) {m : ℕ} (hm : m = l.length) : (l.map g).sum = ∑ u : Fin m, g (l[(u : ℕ)]'(hm ▸ u.2)) := by
  subst hm
  rw [← List.sum_ofFn]
  congr 1
  apply List.ext_getElem <;> simp

theorem copies_of_blocks (hG : IsSGroup irr.length G) (hI : SameIrreps irr G) {Bl : List (Irrep × List Ten)} (gB : ∀ p ∈ Bl, BGood irr (List.range irr.length) p)
    (hB : OBasis irr G (List.range irr.length) (Bl.flatMap Prod.snd)) (ir : Irrep) {m : ℕ} (hm : m = ((Bl.filter fun b => decide (b.1 = ir)).map Prod.snd).length) :
    ∃ B : Fin m → Fin (2 * ir.l + 1) → Ten, (∀ u : Fin m, ((Bl.filter fun b => decide (b.1 = ir)).map Prod.snd)[(u : ℕ)]'(hm ▸ u.2) = List.ofFn (B u)) ∧ Copies irr G ir B := by
  set rb := (Bl.filter fun b => decide (b.1 = ir)).map Prod.snd with hrb
  have hrbg : ∀ r ∈ rb, BGood irr (List.range irr.length) (ir, r) := by
    intro r hr
    obtain ⟨p, hp, rfl⟩ := List.mem_map.mp hr
    obtain ⟨h1, h2⟩ := List.mem_filter.mp hp
    rw [decide_eq_true_iff] at h2
    have := gB p h1
    rw [← h2]; exact this
  have hv : ∀ u : Fin m, ∃ v : Fin (2 * ir.l + 1) → Ten, rb[(u : ℕ)]'(hm ▸ u.2) = List.ofFn v ∧ Fam irr ir v := by
    intro u
    obtain ⟨v, v1, v2, v3⟩ := (hrbg (rb[(u : ℕ)]'(hm ▸ u.2)) (List.getElem_mem _)).exists
    exact ⟨v, v1, v2, v3⟩
  choose B b1 b2 using hv
  obtain ⟨p1, p2⟩ := List.pairwise_flatMap.mp hB.pair
  have p3 : rb.Pairwise fun r r' => ∀ x ∈ r, ∀ y ∈ r', axSum (axisDim irr) (List.range irr.length) (x * y) = 0 := by
    rw [hrb, List.pairwise_map]
    exact p2.sublist List.filter_sublist
  have hmemB : ∀ u, ∃ p ∈ Bl, p.1 = ir ∧ p.2 = List.ofFn (B u) := by
    intro u
    have h1 : rb[(u : ℕ)]'(hm ▸ u.2) ∈ rb := List.getElem_mem _
    obtain ⟨p, hp, e⟩ := List.mem_map.mp h1
    obtain ⟨h3, h4⟩ := List.mem_filter.mp hp
    exact ⟨p, h3, by simpa using h4, e.trans (b1 u)⟩
  refine ⟨B, b1, b2, ?_, ?_⟩
  · intro u u' c c'
    by_cases e : u = u'
    · subst e
      obtain ⟨p, hp, -, hp2⟩ := hmemB u
      rw [gram_ofFn (d := axisDim irr) (f := List.range irr.length) (v := B u) (by rw [← hp2]; exact p1 p hp)
        (fun t ht => hB.norm t (List.mem_flatMap.mpr ⟨p, hp, by rw [hp2]; exact ht⟩)) c c']
      simp
    · rw [if_neg fun h => e h.1]
      rw [List.pairwise_iff_getElem] at p3
      have hne : (u : ℕ) ≠ u' := fun h => e (Fin.ext h)
      rcases lt_or_gt_of_ne hne with h | h
      · exact p3 u u' (hm ▸ u.2) (hm ▸ u'.2) h _ (by rw [b1]; exact (List.mem_ofFn' _ _).mpr ⟨c, rfl⟩) _ (by rw [b1]; exact (List.mem_ofFn' _ _).mpr ⟨c', rfl⟩)
      · rw [mul_comm]
        exact p3 u' u (hm ▸ u'.2) (hm ▸ u.2) h _ (by rw [b1]; exact (List.mem_ofFn' _ _).mpr ⟨c', rfl⟩) _ (by rw [b1]; exact (List.mem_ofFn' _ _).mpr ⟨c, rfl⟩)
  · intro u c σ hσ
    rw [hB.complete _ (avg_symOn hG _ _) σ hσ]
    unfold expansion
    rw [List.map_flatMap, sum_flatMap]
    rw [sum_map_filter Bl (fun b => decide (b.1 = ir))]
    · have e : ((Bl.filter fun b => decide (b.1 = ir)).map fun a => (a.2.map fun x => x σ * axSum (axisDim irr) (List.range irr.length) (x * avg G (B u c)) σ).sum) =
          rb.map fun r => (r.map fun x => x σ * axSum (axisDim irr) (List.range irr.length) (x * avg G (B u c)) σ).sum := by
        rw [hrb, List.map_map]; rfl
      rw [e, sum_list_fin rb _ hm]
      refine sum_congr rfl fun u' _ => ?_
      rw [b1, List.map_ofFn, List.sum_ofFn]
      have hs := schur_same hG hI (b2 u) (b2 u')
      have e2 : ∀ c', axSum (axisDim irr) (List.range irr.length) (B u' c' * avg G (B u c)) σ = if c' = c then elem irr G (B u') (B u) 0 0 else 0 := by
        intro c'
        rw [elem_eq hG (b2 u').on (b2 u).on, hs, Matrix.smul_apply, Matrix.one_apply]
        simp
      simp only [Function.comp_apply, e2]
      rw [Finset.sum_eq_single c]
      · rw [if_pos rfl, mul_comm]
      · intro c' _ h; rw [if_neg h, mul_zero]
      · simp
    · intro p hp hpf
      rw [decide_eq_false_iff_not] at hpf
      obtain ⟨w, w1, w2, w3⟩ := (gB p hp).exists
      have hz := schur_diff hG hI (Ne.symm hpf) (b2 u) (w := w) ⟨w2, w3⟩
      rw [w1, List.map_ofFn, List.sum_ofFn]
      refine sum_eq_zero fun c' _ => ?_
      simp only [Function.comp_apply]
      rw [elem_eq hG w2 (b2 u).on, hz]
      simp

namespace Copies

variable {ir : Irrep} {m : ℕ} {B : Fin m → Fin (2 * ir.l + 1) → Ten}

theorem k_symm (h : Copies irr G ir B) (hG : IsSGroup irr.length G) (hI : SameIrreps irr G) (u u' : Fin m) : elem irr G (B u') (B u) 0 0 = elem irr G (B u) (B u') 0 0 := by
  unfold elem
  rw [← avg_adjoint hG hI ((h.fam u').on 0) ((h.fam u).on 0), mul_comm]

/-- The average of a combination of copies. -/
theorem avg_comb (h : Copies irr G ir B) (hG : IsSGroup irr.length G) (hI : SameIrreps irr G) (a : Fin m → ℝ) (c : Fin (2 * ir.l + 1)) {σ : ℕ → ℕ} (hσ : InR irr σ) :
    avg G (∑ u, a u • B u c) σ = (∑ u, (∑ u', elem irr G (B u) (B u') 0 0 * a u') • B u c) σ := by
  rw [avg_sum, Finset.sum_apply, Finset.sum_apply]
  simp only [avg_smul, Pi.smul_apply, smul_eq_mul, h.exp _ _ σ hσ, Finset.mul_sum, Finset.sum_mul]
  rw [sum_comm]
  exact sum_congr rfl fun u _ => sum_congr rfl fun u' _ => by ring

/-- The coordinate of a combination of copies. -/
theorem coord (h : Copies irr G ir B) (a : Fin m → ℝ) (u : Fin m) (c : Fin (2 * ir.l + 1)) (σ : ℕ → ℕ) :
    axSum (axisDim irr) (List.range irr.length) ((∑ u, a u • B u c) * B u c) σ = a u := by
  rw [Finset.sum_mul, axSum_sum, Finset.sum_apply]
  simp only [smul_mul_assoc, axSum_smul, h.gram, Pi.smul_apply, smul_eq_mul]
  rw [Finset.sum_eq_single u]
  · simp
  · intro u' _ hne; simp [hne]
  · simp

theorem comb_on (h : Copies irr G ir B) (a : Fin m → ℝ) (c : Fin (2 * ir.l + 1)) : On (List.range irr.length) (∑ u, a u • B u c) :=
  On.sum _ fun u _ => ((h.fam u).on c).smul _

/-- Which combinations of copies are symmetric: the same for all components. -/
theorem symm_iff (h : Copies irr G ir B) (hG : IsSGroup irr.length G) (hI : SameIrreps irr G) (a : Fin m → ℝ) (c : Fin (2 * ir.l + 1)) :
    Symm irr G (∑ u, a u • B u c) ↔ ∀ u, ∑ u', elem irr G (B u) (B u') 0 0 * a u' = a u := by
  rw [symm_iff_avg hG hI]
  constructor
  · intro hs u
    have e : axSum (axisDim irr) (List.range irr.length) ((∑ u, (∑ u', elem irr G (B u) (B u') 0 0 * a u') • B u c) * B u c) 0 =
        axSum (axisDim irr) (List.range irr.length) ((∑ u, a u • B u c) * B u c) 0 := by
      have h1 : On (List.range irr.length) ((∑ u, (∑ u', elem irr G (B u) (B u') 0 0 * a u') • B u c) * B u c) := (h.comb_on _ c).mul ((h.fam u).on c)
      have h2 : On (List.range irr.length) ((∑ u, a u • B u c) * B u c) := (h.comb_on a c).mul ((h.fam u).on c)
      apply axSum_congr
      intro τ t1 _
      have hτ : InR irr τ := fun i hi => t1 i (List.mem_range.mpr hi)
      rw [Pi.mul_apply, Pi.mul_apply, ← h.avg_comb hG hI a c hτ, hs τ hτ]
    rw [h.coord, h.coord] at e
    exact e
  · intro hk σ hσ
    rw [h.avg_comb hG hI a c hσ]
    simp only [hk]

theorem flatten_dot (h : Copies irr G ir B) (u u' : Fin m) (c : Fin (2 * ir.l + 1)) :
    flatten (irr.map Irreps.dim) (B u c) ⬝ᵥ flatten (irr.map Irreps.dim) (B u' c) = if u = u' then 1 else 0 := by
  rw [dot_flatten irr ((h.fam u).on c) ((h.fam u').on c) 0, h.gram]
  by_cases e : u = u' <;> simp [e]

end Copies

/-- What `basis_intersection` finds: the coefficients of the symmetric combinations. -/
theorem intersection_copies {eigh : Eigh} (hE : EighOk eigh) {eps : ℝ} (h0 : 0 < eps) (h1 : eps ≤ 1) (hG : IsSGroup irr.length G) (hI : SameIrreps irr G) {Q : List (List ℝ)}
    (hQ : IndexSymmetry.IsOrthonormalBasis (irr.map Irreps.dim) Q (Sym G (irr.map Irreps.dim))) {ir : Irrep} {R : List (Fin (irr.map Irreps.dim).prod → ℝ)}
    {B : Fin R.length → Fin (2 * ir.l + 1) → Ten} (hB : Copies irr G ir B) (hR : ∀ u, R.get u = flatten (irr.map Irreps.dim) (B u 0)) (hn : 4 * R.length * eps ^ 2 < 1) :
    Orthonormal (basisIntersection eigh eps R (permOpt R (Q.map (ofRow (irr.map Irreps.dim))))).1 ∧
      ∀ a, a ∈ rowSpan (basisIntersection eigh eps R (permOpt R (Q.map (ofRow (irr.map Irreps.dim))))).1 ↔ ∀ u, ∑ u', elem irr G (B u) (B u') 0 0 * a u' = a u := by
  set Pm := Q.map (ofRow (irr.map Irreps.dim)) with hPm
  have oP : Orthonormal Pm := rows_orthonormal hQ
  have oR : Orthonormal R := by
    intro i hi j hj
    have := hB.flatten_dot ⟨i, hi⟩ ⟨j, hj⟩ 0
    rw [← hR, ← hR] at this
    simpa using this
  have hcomb : ∀ a : Fin R.length → ℝ, ∑ u, a u • R.get u = flatten (irr.map Irreps.dim) (∑ u, a u • B u 0) := by
    intro a
    rw [flatten_sum]
    simp only [hR]
  have hc : LinAlg.Commute R (permOpt R Pm) := by
    intro u hu q hq ho
    have ho' := permOpt_orth oP hu hq ho
    obtain ⟨a, rfl⟩ := mem_rowSpan.mp hu
    rw [hcomb] at ho'
    set T := ∑ u, a u • B u 0 with hT
    have onT : On (List.range irr.length) T := hB.comb_on a 0
    set b : Fin R.length → ℝ := fun u => ∑ u', elem irr G (B u) (B u') 0 0 * a u' with hb
    have hAT : flatten (irr.map Irreps.dim) (avg G T) = flatten (irr.map Irreps.dim) (∑ u, b u • B u 0) := flatten_eq fun σ hσ => hB.avg_comb hG hI a 0 hσ
    have hz1 : flatten (irr.map Irreps.dim) (avg G T) ∈ rowSpan Pm :=
      (flatten_mem_iff hG hQ (avg_on hG onT)).mpr ((symOn_iff hG).mp (avg_symOn hG _ _))
    have hz2 : ∀ w ∈ rowSpan Pm, w ⬝ᵥ (flatten (irr.map Irreps.dim) T - flatten (irr.map Irreps.dim) (avg G T)) = 0 := by
      intro w hw
      -- every vector is an array
      obtain ⟨W, onW, rfl⟩ : ∃ W, On (List.range irr.length) W ∧ w = flatten (irr.map Irreps.dim) W := by
        refine ⟨fun σ => if h : flat (irr.map Irreps.dim) ((List.range irr.length).map σ) < (irr.map Irreps.dim).prod then w ⟨_, h⟩ else 0, ?_, ?_⟩
        · intro σ τ hh
          have : (List.range irr.length).map σ = (List.range irr.length).map τ := List.map_congr_left fun i hi => hh i hi
          simp only [this]
        · funext k
          have hk : (k : ℕ) < (fullBase (irr.map Irreps.dim)).length := by rw [length_fullBase]; exact k.2
          have hx : (fullBase (irr.map Irreps.dim)).getD k [] = (fullBase (irr.map Irreps.dim))[(k : ℕ)] := List.getD_eq_getElem _ _ hk
          have hmem := List.getElem_mem hk
          have e1 : (List.range irr.length).map (fun i => ((fullBase (irr.map Irreps.dim)).getD k []).getD i 0) = (fullBase (irr.map Irreps.dim))[(k : ℕ)] := by
            rw [hx]
            have hlen : ((fullBase (irr.map Irreps.dim))[(k : ℕ)]).length = irr.length := len_of_mem (by simp) hmem
            apply List.ext_getElem (by simp [hlen])
            intro i i1 i2
            rw [List.getElem_map, List.getElem_range, List.getD_eq_getElem _ _ i2]
          have e2 : flat (irr.map Irreps.dim) (fullBase (irr.map Irreps.dim))[(k : ℕ)] = k := flat_getElem _ hk
          simp only [flatten]
          rw [e1]
          simp only [e2]
          rw [dif_pos k.2]
      have hWs := (flatten_mem_iff hG hQ onW).mp hw
      have hWa := (symm_iff_avg hG hI).mp hWs
      rw [dotProduct_sub, dot_flatten irr onW onT 0, dot_flatten irr onW (avg_on hG onT) 0, ← avg_adjoint hG hI onW onT, sub_eq_zero]
      apply axSum_congr
      intro τ t1 _
      rw [Pi.mul_apply, Pi.mul_apply, hWa τ fun i hi => t1 i (List.mem_range.mpr hi)]
    have hq' : q = flatten (irr.map Irreps.dim) (avg G T) := by
      have h3 : q - flatten (irr.map Irreps.dim) (avg G T) ∈ rowSpan Pm := Submodule.sub_mem _ (permOpt_le hq) hz1
      have h4 : (q - flatten (irr.map Irreps.dim) (avg G T)) ⬝ᵥ (q - flatten (irr.map Irreps.dim) (avg G T)) = 0 := by
        have e : q - flatten (irr.map Irreps.dim) (avg G T) = (flatten (irr.map Irreps.dim) T - flatten (irr.map Irreps.dim) (avg G T)) - (flatten (irr.map Irreps.dim) T - q) := by abel
        conv_lhs => rw [e, dotProduct_sub, ← e, hz2 _ h3, ho' _ h3, sub_zero]
      exact sub_eq_zero.mp (dotProduct_self_eq_zero.mp h4)
    rw [hq', hAT, ← hcomb]
    exact mem_rowSpan.mpr ⟨b, rfl⟩
  obtain ⟨r1, r2⟩ := (LinAlg.intersection hE h0 h1 oR (permOpt_orthonormal oP) hc).1 hn
  refine ⟨r1, fun a => ?_⟩
  have hin : ∑ i, a i • R.get i ∈ rowSpan R := mem_rowSpan.mpr ⟨a, rfl⟩
  rw [r2, permOpt_mem oP hin, hcomb, flatten_mem_iff hG hQ (hB.comb_on a 0), hB.symm_iff hG hI]

namespace Copies

variable {ir : Irrep} {m : ℕ} {B : Fin m → Fin (2 * ir.l + 1) → Ten}

theorem fixed (h : Copies irr G ir B) (hG : IsSGroup irr.length G) (hI : SameIrreps irr G) {t : Ten} (ht : On (List.range irr.length) t) (hs : Symm irr G t) (c : Fin (2 * ir.l + 1)) (σ : ℕ → ℕ) (u : Fin m) :
    ∑ u', elem irr G (B u) (B u') 0 0 * axSum (axisDim irr) (List.range irr.length) (B u' c * t) σ = axSum (axisDim irr) (List.range irr.length) (B u c * t) σ := by
  have hc : ∀ u, axSum (axisDim irr) (List.range irr.length) (B u c * t) σ = axSum (axisDim irr) (List.range irr.length) (B u c * t) 0 :=
    fun u => axSum_const _ (((h.fam u).on c).mul ht) _ _
  simp only [hc]
  have ha := (symm_iff_avg hG hI).mp hs
  have e1 : axSum (axisDim irr) (List.range irr.length) (B u c * t) 0 = axSum (axisDim irr) (List.range irr.length) (B u c * avg G t) 0 := by
    apply axSum_congr
    intro τ t1 _
    rw [Pi.mul_apply, Pi.mul_apply, ha τ fun i hi => t1 i (List.mem_range.mpr hi)]
  have e2 : axSum (axisDim irr) (List.range irr.length) (avg G (B u c) * t) 0 = axSum (axisDim irr) (List.range irr.length) ((∑ u', elem irr G (B u') (B u) 0 0 • B u' c) * t) 0 := by
    apply axSum_congr
    intro τ t1 _
    rw [Pi.mul_apply, Pi.mul_apply, h.exp u c τ fun i hi => t1 i (List.mem_range.mpr hi), Finset.sum_apply]
    rfl
  rw [e1, ← avg_adjoint hG hI ((h.fam u).on c) ht, e2, Finset.sum_mul, axSum_sum, Finset.sum_apply]
  refine sum_congr rfl fun u' _ => ?_
  rw [smul_mul_assoc, axSum_smul, h.k_symm hG hI u u']
  rfl

theorem comb_axSum (h : Copies irr G ir B) (p : Fin m → ℝ) (c : Fin (2 * ir.l + 1)) (t : Ten) (σ : ℕ → ℕ) :
    axSum (axisDim irr) (List.range irr.length) ((∑ u, p u • B u c) * t) σ = ∑ u, p u * axSum (axisDim irr) (List.range irr.length) (B u c * t) σ := by
  rw [Finset.sum_mul, axSum_sum, Finset.sum_apply]
  refine sum_congr rfl fun u' _ => ?_
  rw [smul_mul_assoc, axSum_smul]
  rfl

/-- The part of the expansion with one irrep does not change. -/
theorem expansion_eq (h : Copies irr G ir B) (hG : IsSGroup irr.length G) (hI : SameIrreps irr G) {P : List (Fin m → ℝ)} (oP : Orthonormal P)
    (hP : ∀ a, a ∈ rowSpan P ↔ ∀ u, ∑ u', elem irr G (B u) (B u') 0 0 * a u' = a u) {t : Ten} (ht : On (List.range irr.length) t) (hs : Symm irr G t) (σ : ℕ → ℕ) :
    ∑ u, ∑ c, B u c σ * axSum (axisDim irr) (List.range irr.length) (B u c * t) σ =
      (P.map fun p => ∑ c, (∑ u, p u • B u c) σ * axSum (axisDim irr) (List.range irr.length) ((∑ u, p u • B u c) * t) σ).sum := by
  rw [sum_list_fin P _ rfl, sum_comm, sum_comm (s := (univ : Finset (Fin P.length)))]
  refine sum_congr rfl fun c _ => ?_
  set X : Fin m → ℝ := fun u => axSum (axisDim irr) (List.range irr.length) (B u c * t) σ with hX
  have hx : X ∈ rowSpan P := (hP X).mpr fun u => h.fixed hG hI ht hs c σ u
  have he := oP.expand hx
  have e1 : ∀ u, B u c σ * X u = ∑ i, B u c σ * ((X ⬝ᵥ P.get i) * P.get i u) := by
    intro u
    conv_lhs => rw [he]
    rw [Finset.sum_apply, Finset.mul_sum]
    rfl
  have e0 : ∀ u, B u c σ * axSum (axisDim irr) (List.range irr.length) (B u c * t) σ = B u c σ * X u := fun _ => rfl
  simp only [e0, e1]
  rw [sum_comm]
  refine sum_congr rfl fun i _ => ?_
  rw [h.comb_axSum, Finset.sum_apply, Finset.sum_mul]
  refine sum_congr rfl fun u _ => ?_
  have e2 : ∑ u', (P[(i : ℕ)]) u' * axSum (axisDim irr) (List.range irr.length) (B u' c * t) σ = X ⬝ᵥ P.get i := by
    rw [dotProduct]
    exact sum_congr rfl fun u' _ => mul_comm _ _
  rw [e2, Pi.smul_apply, smul_eq_mul]
  show B u c σ * (X ⬝ᵥ P.get i * P.get i u) = P.get i u * B u c σ * (X ⬝ᵥ P.get i)
  ring

/-- The scalar products of the combinations. -/
theorem comb_gram (h : Copies irr G ir B) (p p' : Fin m → ℝ) (c c' : Fin (2 * ir.l + 1)) :
    axSum (axisDim irr) (List.range irr.length) ((∑ u, p u • B u c) * ∑ u, p' u • B u c') = if c = c' then algebraMap ℝ Ten (p ⬝ᵥ p') else 0 := by
  funext σ
  rw [h.comb_axSum]
  have e : ∀ u, axSum (axisDim irr) (List.range irr.length) (B u c * ∑ u', p' u' • B u' c') σ = if c = c' then p' u else 0 := by
    intro u
    rw [mul_comm, h.comb_axSum]
    simp only [h.gram]
    rw [Finset.sum_eq_single u]
    · by_cases hc : c = c'
      · subst hc; simp
      · have hc' : ¬ c' = c := fun e => hc e.symm
        simp [hc, hc']
    · intro u' _ hne; simp [hne]
    · simp
  simp only [e]
  by_cases hc : c = c'
  · simp only [if_pos hc]
    rfl
  · simp [hc]

end Copies

theorem Orthonormal.length_le {N : ℕ} {R : List (Fin N → ℝ)} (h : LinAlg.Orthonormal R) : R.length ≤ N := by
  have hl : LinearIndependent ℝ R.get := by
    rw [Fintype.linearIndependent_iff]
    intro g hg i
    have := h.coord g i
    rw [hg] at this
    simpa using this.symm
  have := hl.fintype_card_le_finrank
  simpa using this

theorem mix_eq {ir : Irrep} {rb : List (List Ten)} {n : ℕ} {B : Fin n → Fin (2 * ir.l + 1) → Ten} (hB : ∀ u : Fin n, rb.getD u [] = List.ofFn (B u)) (P : List (Fin n → ℝ)) :
    mix ir.dim P rb = P.map fun p => List.ofFn fun c => ∑ u, p u • B u c := by
  unfold mix
  apply List.map_congr_left
  intro p _
  apply List.ext_getElem
  · simp [Irrep.dim]
  · intro k hk1 hk2
    simp only [List.getElem_map, List.getElem_range, List.getElem_ofFn]
    apply sum_congr rfl
    intro u _
    rw [hB, List.getD_eq_getElem _ _ (by simpa [Irrep.dim] using hk1), List.getElem_ofFn]

theorem sum_partition {Bl : List (Irrep × List Ten)} {D : List Irrep} (hD : D.Nodup) (hm : ∀ p ∈ Bl, p.1 ∈ D) (g : Irrep × List Ten → ℝ) :
    (Bl.map g).sum = (D.map fun ir => ((Bl.filter fun b => decide (b.1 = ir)).map g).sum).sum := by
  induction Bl with
  | nil => simp
  | cons p Bl ih =>
    rw [List.map_cons, List.sum_cons, ih fun q hq => hm q (by simp [hq])]
    have e : ∀ ir, (((p :: Bl).filter fun b => decide (b.1 = ir)).map g).sum = (if ir = p.1 then g p else 0) + ((Bl.filter fun b => decide (b.1 = ir)).map g).sum := by
      intro ir
      rw [List.filter_cons]
      by_cases h : p.1 = ir
      · rw [if_pos (by simpa using h), if_pos h.symm, List.map_cons, List.sum_cons]
      · rw [if_neg (by simpa using h), if_neg (Ne.symm h), zero_add]
    simp only [e]
    rw [List.sum_map_add]
    congr 1
    rw [← List.sum_toFinset _ hD, Finset.sum_ite_eq', if_pos (List.mem_toFinset.mpr (hm p (by simp)))]

theorem complete_of_on {L : List Ten} (hG : IsSGroup irr.length G) (hL : ∀ t, On (List.range irr.length) t → Symm irr G t → ∀ σ, InR irr σ → t σ = expansion (axisDim irr) (List.range irr.length) L t σ) (t : Ten)
    (ht : SymOn irr G (List.range irr.length) t) (σ : ℕ → ℕ) (hσ : InR irr σ) : t σ = expansion (axisDim irr) (List.range irr.length) L t σ := by
  set t' : Ten := fun τ => t fun i => if i < irr.length then τ i else σ i with ht'
  have h1 : On (List.range irr.length) t' := by
    intro τ τ' h
    rw [ht']
    simp only
    congr 1
    funext i
    split
    · rename_i hi; exact h i (List.mem_range.mpr hi)
    · rfl
  have h2 : Symm irr G t' := by
    intro q hq τ hτ
    have hp := hG.perm q hq
    have h3 := (symOn_iff hG).mp ht q hq (fun i => if i < irr.length then τ i else σ i) (by intro i hi; simp only [if_pos hi]; exact hτ i hi)
    rw [ht']
    simp only
    rw [← h3]
    unfold pact
    simp only
    congr 1
    funext i
    by_cases hi : i < irr.length
    · have hlt : hat q i < irr.length := by rw [hat_lt hp hi]; exact getD_lt hp hi
      rw [if_pos hi, if_pos hlt]
    · rw [hat_ge hp (by omega), if_neg hi]
  have e : ∀ τ, (∀ i, i ∉ List.range irr.length → τ i = σ i) → t' τ = t τ := by
    intro τ hτ
    rw [ht']
    simp only
    congr 1
    funext i
    split
    · rfl
    · rename_i hi; exact (hτ i (by simpa using hi)).symm
  rw [← e σ fun _ _ => rfl, hL t' h1 h2 σ hσ]
  unfold expansion
  congr 1
  apply List.map_congr_left
  intro x _
  congr 1
  apply axSum_congr
  intro τ _ hτ
  rw [Pi.mul_apply, Pi.mul_apply, e τ hτ]

/-- The constraint step gives an orthonormal basis of the symmetric arrays. -/
theorem constrain_obasis {eigh : Eigh} (hE : EighOk eigh) {eps : ℝ} (h0 : 0 < eps) (h1 : eps ≤ 1) (hn : 4 * ((irr.map Irreps.dim).prod : ℝ) * eps ^ 2 < 1) (hG : IsSGroup irr.length G) (hI : SameIrreps irr G)
    {Q : List (List ℝ)} (hQ : IndexSymmetry.IsOrthonormalBasis (irr.map Irreps.dim) Q (Sym G (irr.map Irreps.dim))) {x : IArr Ten} (ix : Inv x)
    (gB : ∀ p ∈ x.blocks, BGood irr (List.range irr.length) p) (hB : OBasis irr G (List.range irr.length) (x.blocks.flatMap Prod.snd)) {y : IArr Ten}
    (hy : y.blocks = (distinctIrreps x.irreps).flatMap fun ir => (mix ir.dim (coefs eigh eps (irr.map Irreps.dim) x Q ir) (rotBasis x ir)).map fun r => (ir, r)) :
    OBasis irr G (List.range irr.length) (y.blocks.flatMap Prod.snd) ∧ ∀ z ∈ y.blocks.flatMap Prod.snd, Symm irr G z := by
  -- for one irrep
  have key : ∀ ir : Irrep, ∃ (m : ℕ) (B : Fin m → Fin (2 * ir.l + 1) → Ten) (P : List (Fin m → ℝ)), Copies irr G ir B ∧ LinAlg.Orthonormal P ∧
      (∀ a, a ∈ rowSpan P ↔ ∀ u, ∑ u', elem irr G (B u) (B u') 0 0 * a u' = a u) ∧
      mix ir.dim (coefs eigh eps (irr.map Irreps.dim) x Q ir) (rotBasis x ir) = (P.map fun p => List.ofFn fun c => ∑ u, p u • B u c) ∧
      (∀ u, ∃ p ∈ x.blocks, p.1 = ir ∧ p.2 = List.ofFn (B u)) ∧
      (∀ g : List Ten → ℝ, (((x.blocks.filter fun b => decide (b.1 = ir)).map Prod.snd).map g).sum = ∑ u, g (List.ofFn (B u))) := by
    intro ir
    have hrb := rotBasis_blocks ix ir
    have hm : (firstComponents (irr.map Irreps.dim) (rotBasis x ir)).length = ((x.blocks.filter fun b => decide (b.1 = ir)).map Prod.snd).length := by
      unfold firstComponents; rw [List.length_map, hrb]
    obtain ⟨B, b1, b2⟩ := copies_of_blocks hG hI gB hB ir hm
    have hget : ∀ u : Fin (firstComponents (irr.map Irreps.dim) (rotBasis x ir)).length, (rotBasis x ir).getD u [] = List.ofFn (B u) := by
      intro u
      have hu : (u : ℕ) < ((x.blocks.filter fun b => decide (b.1 = ir)).map Prod.snd).length := hm ▸ u.2
      exact (congrArg (fun l => List.getD l (u : ℕ) []) hrb).trans ((List.getD_eq_getElem _ _ hu).trans (b1 u))
    have hR : ∀ u, (firstComponents (irr.map Irreps.dim) (rotBasis x ir)).get u = flatten (irr.map Irreps.dim) (B u 0) := by
      intro u
      have hu : (u : ℕ) < (rotBasis x ir).length := by have h := u.2; have e := congrArg List.length hrb; omega
      have h2 := hget u
      rw [List.getD_eq_getElem _ _ hu] at h2
      have h3 : (firstComponents (irr.map Irreps.dim) (rotBasis x ir)).get u = flatten (irr.map Irreps.dim) (((rotBasis x ir)[(u : ℕ)]'hu).headD 0) := by
        rw [List.get_eq_getElem]; exact List.getElem_map _
      rw [h3, h2, List.ofFn_succ]
      rfl
    have oR : LinAlg.Orthonormal (firstComponents (irr.map Irreps.dim) (rotBasis x ir)) := by
      intro i hi j hj
      have := b2.flatten_dot ⟨i, hi⟩ ⟨j, hj⟩ 0
      rw [← hR, ← hR] at this
      simpa using this
    have hle : 4 * ((firstComponents (irr.map Irreps.dim) (rotBasis x ir)).length : ℝ) * eps ^ 2 < 1 := by
      refine lt_of_le_of_lt ?_ hn
      have : ((firstComponents (irr.map Irreps.dim) (rotBasis x ir)).length : ℝ) ≤ ((irr.map Irreps.dim).prod : ℝ) := by
        exact_mod_cast Orthonormal.length_le oR
      gcongr
    obtain ⟨r1, r2⟩ := intersection_copies hE h0 h1 hG hI hQ b2 hR hle
    refine ⟨_, B, coefs eigh eps (irr.map Irreps.dim) x Q ir, b2, r1, r2, mix_eq hget _, ?_, ?_⟩
    · intro u
      have hu : (u : ℕ) < ((x.blocks.filter fun b => decide (b.1 = ir)).map Prod.snd).length := hm ▸ u.2
      have h3 := List.getElem_mem hu
      obtain ⟨p, hp, e⟩ := List.mem_map.mp h3
      obtain ⟨h4, h5⟩ := List.mem_filter.mp hp
      exact ⟨p, h4, by simpa using h5, e.trans (b1 u)⟩
    · intro g
      rw [sum_list_fin _ g hm]
      exact sum_congr rfl fun u _ => by rw [b1 u]
  choose m B P c1 c2 c3 c4 c5 c6 using key
  have hDn : (distinctIrreps x.irreps).Nodup := (pySorted_perm _ _).nodup_iff.mpr (nodup_eraseDups _)
  have hDm : ∀ p ∈ x.blocks, p.1 ∈ distinctIrreps x.irreps := by
    intro p hp
    have h := List.mem_map_of_mem (f := Prod.fst) hp
    rw [blocks_irs] at h
    refine (pySorted_perm _ _).mem_iff.mpr (List.mem_eraseDups.mpr ?_)
    obtain ⟨m, hm, h⟩ := List.mem_flatMap.mp h
    exact List.mem_map.mpr ⟨m, hm, (List.eq_of_mem_replicate h).symm⟩
  have hL : y.blocks.flatMap Prod.snd = (distinctIrreps x.irreps).flatMap fun ir => (P ir).flatMap fun p => List.ofFn fun c => ∑ u, p u • B ir u c := by
    rw [hy, List.flatMap_assoc]
    apply List.flatMap_congr
    intro ir _
    rw [c4, List.flatMap_map, List.flatMap_map]
  obtain ⟨p1, p2⟩ := List.pairwise_flatMap.mp hB.pair
  have hcross : ∀ ir ir', ir ≠ ir' → ∀ u u' c c', axSum (axisDim irr) (List.range irr.length) (B ir u c * B ir' u' c') = 0 := by
    intro ir ir' hne u u' c c'
    obtain ⟨b, hb, e1, e2⟩ := c5 ir u
    obtain ⟨b', hb', e1', e2'⟩ := c5 ir' u'
    have hbb : b ≠ b' := fun e => hne (by rw [← e1, ← e1', e])
    have hR : Std.Symm fun (b b' : Irrep × List Ten) => ∀ z ∈ b.2, ∀ w ∈ b'.2, axSum (axisDim irr) (List.range irr.length) (z * w) = 0 :=
      ⟨fun a b h z hz w hw => by rw [mul_comm]; exact h w hw z hz⟩
    exact p2.forall hb hb' hbb _ (by rw [e2]; exact (List.mem_ofFn' _ _).mpr ⟨c, rfl⟩) _ (by rw [e2']; exact (List.mem_ofFn' _ _).mpr ⟨c', rfl⟩)
  rw [hL]
  refine ⟨⟨?_, ?_, ?_⟩, ?_⟩
  · rw [List.pairwise_flatMap]
    refine ⟨fun ir _ => ?_, ?_⟩
    · rw [List.pairwise_flatMap]
      refine ⟨fun p hp => ?_, ?_⟩
      · rw [List.pairwise_ofFn]
        intro a b hab
        rw [(c1 ir).comb_gram, if_neg (ne_of_lt hab)]
      · refine (orthonormal_iff.mp (c2 ir)).1.imp fun {p p'} hpp => ?_
        intro z hz w hw
        obtain ⟨a, rfl⟩ := (List.mem_ofFn' _ _).mp hz
        obtain ⟨b, rfl⟩ := (List.mem_ofFn' _ _).mp hw
        rw [(c1 ir).comb_gram, hpp]
        simp
    · refine hDn.imp fun {ir ir'} hne => ?_
      intro z hz w hw
      obtain ⟨p, -, hz⟩ := List.mem_flatMap.mp hz
      obtain ⟨p', -, hw⟩ := List.mem_flatMap.mp hw
      obtain ⟨a, rfl⟩ := (List.mem_ofFn' _ _).mp hz
      obtain ⟨b, rfl⟩ := (List.mem_ofFn' _ _).mp hw
      rw [Finset.sum_mul, axSum_sum]
      refine sum_eq_zero fun u _ => ?_
      rw [Finset.mul_sum, axSum_sum]
      refine sum_eq_zero fun u' _ => ?_
      rw [smul_mul_smul_comm, axSum_smul, hcross ir ir' hne, smul_zero]
  · intro z hz
    obtain ⟨ir, -, hz⟩ := List.mem_flatMap.mp hz
    obtain ⟨p, hp, hz⟩ := List.mem_flatMap.mp hz
    obtain ⟨a, rfl⟩ := (List.mem_ofFn' _ _).mp hz
    rw [(c1 ir).comb_gram, if_pos rfl, (orthonormal_iff.mp (c2 ir)).2 p hp, map_one]
  · intro t ht σ hσ
    refine complete_of_on hG ?_ t ht σ hσ
    intro t ht hs σ hσ
    rw [hB.complete t ((symOn_iff hG).mpr hs) σ hσ]
    unfold expansion
    rw [List.map_flatMap, sum_flatMap, sum_partition hDn hDm, List.map_flatMap, sum_flatMap]
    congr 1
    apply List.map_congr_left
    intro ir _
    have h2 := c6 ir fun r => (r.map fun x => x σ * axSum (axisDim irr) (List.range irr.length) (x * t) σ).sum
    rw [List.map_map] at h2
    refine Eq.trans h2 ?_
    rw [List.map_flatMap, sum_flatMap]
    simp only [List.map_ofFn, List.sum_ofFn, Function.comp_apply]
    exact (c1 ir).expansion_eq hG hI (c2 ir) (c3 ir) ht hs σ
  · intro z hz
    obtain ⟨ir, -, hz⟩ := List.mem_flatMap.mp hz
    obtain ⟨p, hp, hz⟩ := List.mem_flatMap.mp hz
    obtain ⟨a, rfl⟩ := (List.mem_ofFn' _ _).mp hz
    rw [(c1 ir).symm_iff hG hI]
    exact (c3 ir p).mp (Submodule.subset_span hp)

end E3nn.RTP

import Verif.Lemmas.RTPAverage
import Verif.Props.C55

/-! # Arrays as vectors -/

namespace E3nn.RTP

open Finset E3nn.IArr E3nn.Wig E3nn.PermRepr E3nn.Perm E3nn.LinAlg

/-- The index in a list. -/
def idx (x : List ℕ) : ℕ → ℕ := fun i => x.getD i 0

theorem axSum_succ (d : ℕ → ℕ) (f : List ℕ) (u : Ten) (σ : ℕ → ℕ) :
    axSum d (f.map Nat.succ) u σ = axSum (fun i => d (i + 1)) f (fun τ => u fun i => Nat.casesOn i (σ 0) τ) (fun i => σ (i + 1)) := by
  induction f generalizing σ with
  | nil =>
    show u σ = u _
    congr 1
    funext i
    cases i <;> rfl
  | cons j f ih =>
    rw [List.map_cons, axSum_cons, axSum_cons]
    refine sum_congr rfl fun k _ => ?_
    rw [ih]
    have e1 : Function.update σ (j + 1) k 0 = σ 0 := Function.update_of_ne (by omega) _ _
    have e2 : (fun i => Function.update σ (j + 1) k (i + 1)) = Function.update (fun i => σ (i + 1)) j k := by
      funext i
      by_cases h : i = j
      · subst h; simp
      · rw [Function.update_of_ne h, Function.update_of_ne (by omega)]
    simp only [Nat.succ_eq_add_one, e1, e2]

/-- The sum over all indices as the sum over the list of indices. -/
theorem axSum_fullBase (dims : List ℕ) (u : Ten) (hu : On (List.range dims.length) u) (σ : ℕ → ℕ) :
    axSum (fun i => dims.getD i 0) (List.range dims.length) u σ = ((fullBase dims).map fun x => u (idx x)).sum := by
  induction dims generalizing u σ with
  | nil =>
    simp only [fullBase, List.map_cons, List.map_nil, List.sum_singleton, List.length_nil, List.range_zero]
    exact hu _ _ (by simp)
  | cons d ds ih =>
    rw [List.length_cons, List.range_succ_eq_map, axSum_cons]
    have e1 : fullBase (d :: ds) = (List.range d).flatMap fun k => (fullBase ds).map fun x => k :: x := rfl
    rw [e1, List.map_flatMap, sum_flatMap, sum_range_fin, Finset.sum_range]
    refine Finset.sum_congr rfl fun k _ => ?_
    rw [axSum_succ]
    have e2 : (fun i => (d :: ds).getD (i + 1) 0) = fun i => ds.getD i 0 := rfl
    rw [e2, ih, List.map_map]
    · congr 1
      apply List.map_congr_left
      intro x _
      simp only [Function.comp_apply]
      congr 1
      funext i
      cases i with
      | zero => simp [idx]
      | succ i => rfl
    · intro τ τ' h
      apply hu
      intro i hi
      cases i with
      | zero => rfl
      | succ i => exact h i (by simpa using hi)

theorem axisDim_eq (irr : List Irreps) : (fun i => (irr.map Irreps.dim).getD i 0) = axisDim irr := by
  funext i
  unfold axisDim
  by_cases hi : i < irr.length
  · rw [List.getD_eq_getElem _ _ (by simpa using hi), List.getElem_map, List.getD_eq_getElem irr [] hi]
  · rw [List.getD_eq_default _ _ (by simpa using hi), List.getD_eq_default irr [] (by omega)]; rfl

theorem axSum_eq_fullBase (irr : List Irreps) {u : Ten} (hu : On (List.range irr.length) u) (σ : ℕ → ℕ) :
    axSum (axisDim irr) (List.range irr.length) u σ = ((fullBase (irr.map Irreps.dim)).map fun x => u (idx x)).sum := by
  have := axSum_fullBase (irr.map Irreps.dim) u (by simpa using hu) σ
  rw [axisDim_eq, List.length_map] at this
  exact this

theorem length_fullBase (dims : List ℕ) : (fullBase dims).length = dims.prod := by
  have := congrArg List.length (fullBase_flat dims)
  simpa using this

theorem flat_getElem (dims : List ℕ) {k : ℕ} (hk : k < (fullBase dims).length) : flat dims (fullBase dims)[k] = k := by
  have h := fullBase_flat dims
  have h2 : ((fullBase dims).map (flat dims))[k]'(by simpa using hk) = (List.range dims.prod)[k]'(by rw [List.length_range, ← length_fullBase]; exact hk) := by
    congr 1
  simpa using h2

theorem sum_fin_fullBase (dims : List ℕ) (F : List ℕ → ℝ) : ∑ k : Fin dims.prod, F ((fullBase dims).getD k []) = ((fullBase dims).map F).sum := by
  have h : (fullBase dims).map F = (List.range dims.prod).map fun k => F ((fullBase dims).getD k []) := by
    apply List.ext_getElem
    · simp [length_fullBase]
    · intro i h1 h2
      rw [List.length_map] at h1
      simp [List.getElem?_eq_getElem h1]
  rw [h, sum_range_fin]

open Matrix in
theorem dot_flatten (irr : List Irreps) {s t : Ten} (hs : On (List.range irr.length) s) (ht : On (List.range irr.length) t) (σ : ℕ → ℕ) :
    flatten (irr.map Irreps.dim) s ⬝ᵥ flatten (irr.map Irreps.dim) t = axSum (axisDim irr) (List.range irr.length) (s * t) σ := by
  rw [axSum_eq_fullBase irr (hs.mul ht), dotProduct]
  exact sum_fin_fullBase (irr.map Irreps.dim) fun x => (s * t) (idx x)

theorem inner_axSum (irr : List Irreps) {s t : Ten} (hs : On (List.range irr.length) s) (ht : On (List.range irr.length) t) (σ : ℕ → ℕ) :
    inner irr s t = axSum (axisDim irr) (List.range irr.length) (s * t) σ := by
  rw [axSum_eq_fullBase irr (hs.mul ht)]; rfl

theorem idx_inR {irr : List Irreps} {x : List ℕ} (hx : x ∈ fullBase (irr.map Irreps.dim)) : InR irr (idx x) := by
  rw [mem_fullBase, forall₂_iff] at hx
  intro i hi
  have := hx.2 i (by simpa using hi)
  rw [← axisDim_eq]
  exact this

theorem mem_of_inR {irr : List Irreps} {σ : ℕ → ℕ} (hσ : InR irr σ) : (List.range irr.length).map σ ∈ fullBase (irr.map Irreps.dim) := by
  rw [mem_fullBase, forall₂_iff]
  refine ⟨by simp, fun i hi => ?_⟩
  rw [List.length_map] at hi
  have h1 := hσ i hi
  rw [← axisDim_eq] at h1
  rw [List.getD_eq_getElem _ _ (by simpa using hi)]
  simpa using h1

theorem idx_map_range {n : ℕ} (σ : ℕ → ℕ) {i : ℕ} (hi : i < n) : idx ((List.range n).map σ) i = σ i := by
  unfold idx
  rw [List.getD_eq_getElem _ _ (by simpa using hi)]
  simp

theorem flatten_eq {irr : List Irreps} {s t : Ten} (h : ∀ σ, InR irr σ → s σ = t σ) : flatten (irr.map Irreps.dim) s = flatten (irr.map Irreps.dim) t := by
  funext k
  apply h
  have hk : (k : ℕ) < (fullBase (irr.map Irreps.dim)).length := by rw [length_fullBase]; exact k.2
  refine idx_inR (x := (fullBase (irr.map Irreps.dim)).getD k []) ?_
  rw [List.getD_eq_getElem _ _ hk]
  exact List.getElem_mem hk

theorem flatten_sum {dims : List ℕ} {κ : Type} (S : Finset κ) (c : κ → ℝ) (t : κ → Ten) :
    flatten dims (∑ k ∈ S, c k • t k) = ∑ k ∈ S, c k • flatten dims (t k) := by
  funext j
  simp [flatten, Finset.sum_apply]

/-- The array has all the symmetries. -/
def Symm (irr : List Irreps) (G : Finset SPerm) (t : Ten) : Prop := ∀ q ∈ G, ∀ σ, InR irr σ → pact q t σ = q.1 * t σ

theorem inR_hat {irr : List Irreps} {G : Finset SPerm} (hG : IsSGroup irr.length G) (hI : SameIrreps irr G) {q : SPerm} (hq : q ∈ G) {σ : ℕ → ℕ} (hσ : InR irr σ) :
    InR irr fun i => σ (hat q i) := by
  intro i hi
  simp only [hat_lt (hG.perm q hq) hi]
  have := hσ _ (getD_lt (hG.perm q hq) hi)
  rw [hI.axisDim hq hi] at this
  exact this

theorem symm_iff_avg {irr : List Irreps} {G : Finset SPerm} (hG : IsSGroup irr.length G) (hI : SameIrreps irr G) {t : Ten} :
    Symm irr G t ↔ ∀ σ, InR irr σ → avg G t σ = t σ := by
  constructor
  · intro h σ hσ
    exact avg_of_sym hG fun q hq => h q hq σ hσ
  · intro h q hq σ hσ
    have h1 := congrFun (avg_sym hG hq t) σ
    have h2 : pact q (avg G t) σ = avg G t fun i => σ (hat q i) := rfl
    rw [h2, h _ (inR_hat hG hI hq hσ), Pi.smul_apply, h σ hσ] at h1
    exact h1

theorem symOn_iff {irr : List Irreps} {G : Finset SPerm} (hG : IsSGroup irr.length G) {t : Ten} : SymOn irr G (List.range irr.length) t ↔ Symm irr G t := by
  constructor
  · intro h q hq σ hσ
    exact h q hq (fun j hj hn => absurd (List.mem_range.mpr (by rw [len_of (hG.perm q hq)] at hj; exact hj)) hn) σ hσ
  · intro h q hq _ σ hσ
    exact h q hq σ hσ

/-- The rows of the permutation basis span the symmetric arrays. -/
theorem flatten_mem_iff {irr : List Irreps} {G : Finset SPerm} (hG : IsSGroup irr.length G) {Q : List (List ℝ)}
    (hQ : IndexSymmetry.IsOrthonormalBasis (irr.map Irreps.dim) Q (Sym G (irr.map Irreps.dim))) {t : Ten} (ht : On (List.range irr.length) t) :
    flatten (irr.map Irreps.dim) t ∈ rowSpan (Q.map (ofRow (irr.map Irreps.dim))) ↔ Symm irr G t := by
  set dims := irr.map Irreps.dim with hdims
  have h1 : Symm irr G t ↔ Sym G dims fun x => t (idx x) := by
    have key : ∀ q ∈ G, ∀ x ∈ fullBase dims, pact q t (idx x) = t (idx (permute x q.2)) := by
      intro q hq x hx
      apply ht
      intro i hi
      have hi' := List.mem_range.mp hi
      have hp := hG.perm q hq
      rw [hat_lt hp hi']
      unfold idx permute
      rw [List.getD_eq_getElem (q.2.map _) _ (by rw [List.length_map, len_of hp]; exact hi'), List.getElem_map, List.getD_eq_getElem q.2 _ (by rw [len_of hp]; exact hi')]
    constructor
    · intro h q hq x hx
      have h2 := h q hq (idx x) (idx_inR hx)
      rw [key q hq x hx] at h2
      simp only
      rw [h2, ← mul_assoc, cast_sq hG hq, one_mul]
    · intro h q hq σ hσ
      have hx := mem_of_inR hσ
      have h2 := h q hq _ hx
      simp only at h2
      rw [← key q hq _ hx] at h2
      have e : ∀ t : Ten, On (List.range irr.length) t → t (idx ((List.range irr.length).map σ)) = t σ :=
        fun t ht => ht _ _ fun i hi => idx_map_range σ (List.mem_range.mp hi)
      rw [e t ht, e _ (pact_on (hG.perm q hq) ht)] at h2
      rw [h2, ← mul_assoc, cast_sq hG hq, one_mul]
  rw [h1, hQ.span, mem_rowSpan]
  have hlen : (Q.map (ofRow dims)).length = Q.length := by simp
  constructor
  · rintro ⟨c, hc⟩
    refine ⟨fun i => if h : i < Q.length then c ⟨i, by rw [hlen]; exact h⟩ else 0, fun x hx => ?_⟩
    have hx' := mem_fullBase.mpr hx
    have hk := flat_lt hx'
    have h2 := congrFun hc ⟨flat dims x, hk⟩
    have e1 : (fullBase dims).getD (flat dims x) [] = x := by
      have hk' : flat dims x < (fullBase dims).length := by rw [length_fullBase]; exact hk
      rw [List.getD_eq_getElem _ _ hk']
      exact flat_inj (List.getElem_mem hk') hx' (flat_getElem dims hk')
    have e2 : flatten dims t ⟨flat dims x, hk⟩ = t (idx x) := by
      show t (idx ((fullBase dims).getD (flat dims x) [])) = _
      rw [e1]
    rw [e2] at h2
    rw [h2, Finset.sum_apply, Finset.sum_range]
    refine Fintype.sum_equiv (finCongr hlen) _ _ fun i => ?_
    have hi : (i : ℕ) < Q.length := by have := i.2; omega
    simp only [finCongr_apply, Fin.val_cast, hi, dif_pos, Pi.smul_apply, smul_eq_mul, List.get_eq_getElem, List.getElem_map, ofRow]
    rw [← flat_rowMajor hx, List.getD_eq_getElem Q _ hi]
  · rintro ⟨c, hc⟩
    refine ⟨fun i => c i, ?_⟩
    funext k
    have hk : (k : ℕ) < (fullBase dims).length := by rw [length_fullBase]; exact k.2
    have hx := List.getElem_mem hk
    have h2 := hc _ (mem_fullBase.mp hx)
    have e2 : flatten dims t k = t (idx (fullBase dims)[(k : ℕ)]) := by
      show t (idx ((fullBase dims).getD k [])) = _
      rw [List.getD_eq_getElem _ _ hk]
    rw [e2]
    rw [h2, Finset.sum_apply, Finset.sum_range]
    refine (Fintype.sum_equiv (finCongr hlen) _ _ fun i => ?_).symm
    have hi : (i : ℕ) < Q.length := by have := i.2; omega
    simp only [finCongr_apply, Fin.val_cast, Pi.smul_apply, smul_eq_mul, List.get_eq_getElem, List.getElem_map, ofRow]
    rw [← flat_rowMajor (mem_fullBase.mp hx), List.getD_eq_getElem Q _ hi, flat_getElem]

theorem rows_orthonormal {dims : List ℕ} {Q : List (List ℝ)} {S : (List ℕ → ℝ) → Prop} (hQ : IndexSymmetry.IsOrthonormalBasis dims Q S) : Orthonormal (Q.map (ofRow dims)) := by
  intro i hi j hj
  rw [List.length_map] at hi hj
  have h := hQ.orthonormal i hi j hj
  rw [Finset.sum_range] at h
  rw [← h]
  simp only [List.getElem_map, dotProduct, ofRow]
  rw [List.getD_eq_getElem Q _ hi, List.getD_eq_getElem Q _ hj]

end E3nn.RTP

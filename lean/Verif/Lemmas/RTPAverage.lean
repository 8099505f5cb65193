import Verif.Lemmas.RTPPlace

/-! # The average over the symmetries -/

namespace E3nn.RTP

open Finset E3nn.IArr E3nn.Wig E3nn.PermRepr E3nn.Perm

/-- The irreps are the same on axes that a symmetry exchanges. -/
def SameIrreps (irr : List Irreps) (G : Finset SPerm) : Prop := ∀ q ∈ G, ∀ i < irr.length, irr.getD (q.2.getD i 0) [] = irr.getD i []

theorem SameIrreps.axisDim {irr : List Irreps} {G : Finset SPerm} (h : SameIrreps irr G) {q : SPerm} (hq : q ∈ G) {i : ℕ} (hi : i < irr.length) :
    RTP.axisDim irr (q.2.getD i 0) = RTP.axisDim irr i := by
  unfold RTP.axisDim; rw [h q hq i hi]

theorem SameIrreps.compat {irr : List Irreps} {G : Finset SPerm} (hG : IsSGroup irr.length G) (h : SameIrreps irr G) : Compat G (irr.map Irreps.dim) := by
  intro q hq
  have hp := hG.perm q hq
  have hl := len_of hp
  have hd : ∀ i, (irr.map Irreps.dim).getD i 0 = RTP.axisDim irr i := by
    intro i
    unfold RTP.axisDim
    by_cases hi : i < irr.length
    · rw [List.getD_eq_getElem _ _ (by simpa using hi), List.getElem_map, List.getD_eq_getElem irr [] hi]
    · rw [List.getD_eq_default _ _ (by simpa using hi), List.getD_eq_default irr [] (by omega)]; rfl
  unfold permute
  apply List.ext_getElem (by simp [hl])
  intro i h1 h2
  rw [List.length_map] at h1
  rw [List.getElem_map, List.getElem_map, hd]
  have e := h.axisDim hq (i := i) (by omega)
  rw [List.getD_eq_getElem _ _ h1] at e
  rw [e]
  unfold RTP.axisDim
  rw [List.getD_eq_getElem irr [] (by omega)]

theorem SameIrreps.sub {irr : List Irreps} {G : Finset SPerm} (hG : IsSGroup irr.length G) (h : SameIrreps irr G) {f : List ℕ} (hf : f.Pairwise (· < ·)) (hlt : ∀ i ∈ f, i < irr.length) :
    SameIrreps (f.map fun k => irr.getD k []) (subrepr f G) := by
  intro r hr i hi
  rw [List.length_map] at hi
  obtain ⟨q, hq, hfix, rfl⟩ := (mem_subrepr hG hlt hf).mp hr
  have hm := getD_mem hi
  have hm2 := fixes_maps (hG.perm q hq) hfix hm (hlt _ hm)
  have e : ∀ k < f.length, (f.map fun k => irr.getD k []).getD k [] = irr.getD (f.getD k 0) [] := by
    intro k hk
    rw [List.getD_eq_getElem _ _ (by simpa using hk), List.getElem_map, List.getD_eq_getElem f _ hk]
  simp only
  rw [restr_getD hi, e _ (List.idxOf_lt_length_iff.mpr hm2), sub_getD_idxOf hm2, e _ hi, h q hq _ (hlt _ hm)]

/-- The axes permuted. -/
def pact (q : SPerm) (t : Ten) : Ten := fun σ => t fun i => σ (hat q i)

theorem hat_lt {n : ℕ} {q : SPerm} (hp : q.2.Perm (List.range n)) {i : ℕ} (hi : i < n) : hat q i = q.2.getD i 0 := by
  unfold hat
  have := len_of hp
  rw [List.getD_eq_getElem _ _ (by omega), List.getD_eq_getElem _ _ (by omega)]

theorem hat_ge {n : ℕ} {q : SPerm} (hp : q.2.Perm (List.range n)) {i : ℕ} (hi : n ≤ i) : hat q i = i := by
  unfold hat
  have := len_of hp
  rw [List.getD_eq_default _ _ (by omega)]

theorem pact_place {n : ℕ} {q : SPerm} (hp : q.2.Perm (List.range n)) {t : Ten} (ht : On (List.range n) t) : pact q t = place q.2 t := by
  funext σ
  apply ht
  intro i hi
  rw [hat_lt hp (List.mem_range.mp hi)]

theorem pact_on {n : ℕ} {q : SPerm} (hp : q.2.Perm (List.range n)) {t : Ten} (ht : On (List.range n) t) : On (List.range n) (pact q t) := by
  intro σ τ h
  apply ht
  intro i hi
  have hi' := List.mem_range.mp hi
  rw [hat_lt hp hi']
  exact h _ (List.mem_range.mpr (getD_lt hp hi'))

theorem pact_comp {n : ℕ} {q r : SPerm} (hq : q.2.Perm (List.range n)) (hr : r.2.Perm (List.range n)) (s : ℤ) (t : Ten) :
    pact q (pact r t) = pact (s, Perm.comp q.2 r.2) t := by
  funext σ
  unfold pact
  congr 1
  funext i
  by_cases hi : i < n
  · have h1 : hat (s, Perm.comp q.2 r.2) i = (Perm.comp q.2 r.2).getD i 0 := hat_lt (q := (s, Perm.comp q.2 r.2)) (comp_perm hq hr) hi
    show σ (hat q (hat r i)) = _
    rw [h1, comp_getD hq hi, hat_lt hr hi, hat_lt hq (getD_lt hr hi)]
  · have h1 : hat (s, Perm.comp q.2 r.2) i = i := hat_ge (q := (s, Perm.comp q.2 r.2)) (comp_perm hq hr) (by omega)
    show σ (hat q (hat r i)) = _
    rw [h1, hat_ge hr (by omega), hat_ge hq (i := i) (by omega)]

theorem pact_id {n : ℕ} (s : ℤ) (t : Ten) : pact (s, identity n) t = t := by
  funext σ
  unfold pact
  congr 1
  funext i
  by_cases hi : i < n
  · rw [hat_lt (q := (s, identity n)) (id_perm n) hi, id_getD hi]
  · rw [hat_ge (q := (s, identity n)) (id_perm n) (by omega)]

theorem pact_mul (q : SPerm) (s t : Ten) : pact q (s * t) = pact q s * pact q t := rfl

/-- The sum over all indices does not change. -/
theorem axSum_pact {irr : List Irreps} {G : Finset SPerm} (hG : IsSGroup irr.length G) (hI : SameIrreps irr G) {q : SPerm} (hq : q ∈ G) {t : Ten} (ht : On (List.range irr.length) t) :
    axSum (axisDim irr) (List.range irr.length) (pact q t) = axSum (axisDim irr) (List.range irr.length) t := by
  have hp := hG.perm q hq
  have hl := len_of hp
  rw [pact_place hp ht, ← axSum_perm _ hp]
  rw [axSum_place irr (nodup_of hp) (by rw [hl]; exact ht)]
  funext σ
  unfold place
  rw [hl, axSum_congr_d (d' := axisDim irr)]
  · exact axSum_const _ ht _ _
  · intro i hi
    have hi' := List.mem_range.mp hi
    rw [axisDim_sub irr (by omega), hI.axisDim hq hi']

/-- Rotations commute with permutations of the axes. -/
theorem onAxes_pact {irr : List Irreps} {G : Finset SPerm} (hG : IsSGroup irr.length G) (hI : SameIrreps irr G) {q : SPerm} (hq : q ∈ G) (R : Matrix (Fin 3) (Fin 3) ℝ) {t : Ten}
    (ht : On (List.range irr.length) t) : onAxes (axisDim irr) (mats irr R) (List.range irr.length) (pact q t) = pact q (onAxes (axisDim irr) (mats irr R) (List.range irr.length) t) := by
  have hp := hG.perm q hq
  have hl := len_of hp
  rw [pact_place hp ht, pact_place hp (onAxes_on _ _ ht fun i hi => hi), ← onAxes_perm _ _ hp, onAxes_place _ _ (nodup_of hp) (by rw [hl]; exact ht), hl]
  congr 1
  unfold onAxes
  apply List.foldr_ext
  intro k hk s
  have hk' := List.mem_range.mp hk
  have e := hI q hq k hk'
  unfold axisDim mats
  simp only [e]

theorem group_sum_left {n : ℕ} {G : Finset SPerm} (hG : IsSGroup n G) {r : SPerm} (hr : r ∈ G) {M : Type} [AddCommMonoid M] (F : SPerm → M) :
    ∑ q ∈ G, F (r.1 * q.1, Perm.comp r.2 q.2) = ∑ q ∈ G, F q := by
  have hrp := hG.perm r hr
  have hs := sq_sign (hG.sign r hr)
  refine Finset.sum_nbij' (fun q => (r.1 * q.1, Perm.comp r.2 q.2)) (fun q => (r.1 * q.1, Perm.comp (Perm.inv r.2) q.2)) ?_ ?_ ?_ ?_ ?_
  · intro q hq; exact hG.comp r hr q hq
  · intro q hq; exact hG.comp _ (hG.inv r hr) q hq
  · intro q hq
    have hqp := hG.perm q hq
    refine Prod.ext ?_ ?_
    · simp only; rw [← mul_assoc, hs, one_mul]
    · simp only; rw [← comp_assoc (inv_perm hrp) hrp hqp, inv_comp hrp, id_comp hqp]
  · intro q hq
    have hqp := hG.perm q hq
    refine Prod.ext ?_ ?_
    · simp only; rw [← mul_assoc, hs, one_mul]
    · simp only; rw [← comp_assoc hrp (inv_perm hrp) hqp, comp_inv hrp, id_comp hqp]
  · intro q _; rfl

theorem group_sum_inv {n : ℕ} {G : Finset SPerm} (hG : IsSGroup n G) {M : Type} [AddCommMonoid M] (F : SPerm → M) :
    ∑ q ∈ G, F (q.1, Perm.inv q.2) = ∑ q ∈ G, F q := by
  refine Finset.sum_nbij' (fun q => (q.1, Perm.inv q.2)) (fun q => (q.1, Perm.inv q.2)) ?_ ?_ ?_ ?_ ?_
  · intro q hq; exact hG.inv q hq
  · intro q hq; exact hG.inv q hq
  · intro q hq; exact Prod.ext rfl (Perm.inv_inv (hG.perm q hq))
  · intro q hq; exact Prod.ext rfl (Perm.inv_inv (hG.perm q hq))
  · intro q _; rfl

/-- The average over the signed permutations. -/
noncomputable def avg (G : Finset SPerm) (t : Ten) : Ten := (G.card : ℝ)⁻¹ • ∑ q ∈ G, (q.1 : ℝ) • pact q t

variable {irr : List Irreps} {G : Finset SPerm}

theorem avg_on (hG : IsSGroup irr.length G) {t : Ten} (ht : On (List.range irr.length) t) : On (List.range irr.length) (avg G t) :=
  (On.sum _ fun q hq => (pact_on (hG.perm q hq) ht).smul _).smul _

theorem pact_smul (q : SPerm) (c : ℝ) (t : Ten) : pact q (c • t) = c • pact q t := rfl
theorem pact_add (q : SPerm) (s t : Ten) : pact q (s + t) = pact q s + pact q t := rfl
theorem pact_sum (q : SPerm) {κ : Type} (S : Finset κ) (t : κ → Ten) : pact q (∑ k ∈ S, t k) = ∑ k ∈ S, pact q (t k) := by
  funext σ; simp [pact, Finset.sum_apply]

theorem avg_smul (c : ℝ) (t : Ten) : avg G (c • t) = c • avg G t := by
  unfold avg
  simp only [pact_smul, Finset.smul_sum, smul_smul]
  exact sum_congr rfl fun q _ => by congr 1; ring

theorem avg_sum {κ : Type} (S : Finset κ) (t : κ → Ten) : avg G (∑ k ∈ S, t k) = ∑ k ∈ S, avg G (t k) := by
  unfold avg
  simp only [pact_sum, Finset.smul_sum]
  rw [sum_comm]

theorem cast_sq {n : ℕ} (hG : IsSGroup n G) {q : SPerm} (hq : q ∈ G) : (q.1 : ℝ) * q.1 = 1 := by
  have := sq_sign (hG.sign q hq)
  exact_mod_cast this

/-- The average is symmetric. -/
theorem avg_sym {n : ℕ} (hG : IsSGroup n G) {r : SPerm} (hr : r ∈ G) (t : Ten) : pact r (avg G t) = (r.1 : ℝ) • avg G t := by
  unfold avg
  rw [pact_smul, pact_sum, smul_comm]
  congr 1
  rw [Finset.smul_sum, ← group_sum_left hG hr fun q => (r.1 : ℝ) • (q.1 : ℝ) • pact q t]
  refine sum_congr rfl fun q hq => ?_
  rw [pact_smul, pact_comp (hG.perm r hr) (hG.perm q hq) (r.1 * q.1), smul_smul]
  congr 1
  push_cast
  rw [← mul_assoc, cast_sq hG hr, one_mul]

theorem avg_symOn (hG : IsSGroup irr.length G) (f : List ℕ) (t : Ten) : SymOn irr G f (avg G t) := by
  intro q hq _ σ _
  have := congrFun (avg_sym hG hq t) σ
  exact this

theorem card_ne {n : ℕ} (hG : IsSGroup n G) : (G.card : ℝ) ≠ 0 := by
  have : G.card ≠ 0 := Finset.card_ne_zero_of_mem hG.one
  exact_mod_cast this

/-- A symmetric array is its own average. -/
theorem avg_of_sym {n : ℕ} (hG : IsSGroup n G) {t : Ten} {σ : ℕ → ℕ} (h : ∀ q ∈ G, pact q t σ = q.1 * t σ) : avg G t σ = t σ := by
  unfold avg
  rw [Pi.smul_apply, Finset.sum_apply, smul_eq_mul]
  have e : ∀ q ∈ G, ((q.1 : ℝ) • pact q t) σ = t σ := by
    intro q hq
    rw [Pi.smul_apply, h q hq, smul_eq_mul, ← mul_assoc, cast_sq hG hq, one_mul]
  rw [sum_congr rfl e, Finset.sum_const, nsmul_eq_mul, ← mul_assoc, inv_mul_cancel₀ (card_ne hG), one_mul]

/-- The average is its own adjoint. -/
theorem avg_adjoint (hG : IsSGroup irr.length G) (hI : SameIrreps irr G) {s t : Ten} (hs : On (List.range irr.length) s) (ht : On (List.range irr.length) t) :
    axSum (axisDim irr) (List.range irr.length) (avg G s * t) = axSum (axisDim irr) (List.range irr.length) (s * avg G t) := by
  unfold avg
  rw [smul_mul_assoc, mul_smul_comm, axSum_smul, axSum_smul, Finset.sum_mul, Finset.mul_sum, axSum_sum, axSum_sum]
  congr 1
  rw [← group_sum_inv hG fun q => axSum (axisDim irr) (List.range irr.length) (s * (q.1 : ℝ) • pact q t)]
  refine sum_congr rfl fun q hq => ?_
  have hp := hG.perm q hq
  rw [smul_mul_assoc, mul_smul_comm, axSum_smul, axSum_smul]
  simp only
  congr 1
  rw [← axSum_pact hG hI hq (hs.mul (pact_on (q := (q.1, Perm.inv q.2)) (inv_perm hp) ht)), pact_mul, pact_comp (r := (q.1, Perm.inv q.2)) hp (inv_perm hp) 1]
  simp only [comp_inv hp, pact_id]

/-- The average commutes with rotations. -/
theorem avg_rotate (hG : IsSGroup irr.length G) (hI : SameIrreps irr G) (R : Matrix (Fin 3) (Fin 3) ℝ) {t : Ten} (ht : On (List.range irr.length) t) :
    onAxes (axisDim irr) (mats irr R) (List.range irr.length) (avg G t) = avg G (onAxes (axisDim irr) (mats irr R) (List.range irr.length) t) := by
  unfold avg
  rw [onAxes_smul, onAxes_sum]
  congr 1
  refine sum_congr rfl fun q hq => ?_
  rw [onAxes_smul, onAxes_pact hG hI hq R ht]

end E3nn.RTP

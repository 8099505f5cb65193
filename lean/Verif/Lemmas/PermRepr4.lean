import Verif.Lemmas.PermRepr3
import Verif.Lemmas.Parse
import Verif.Spec.IndexSymmetry

/-! From formulas to groups. -/

namespace E3nn.PermRepr

open E3nn.Perm E3nn.Parse E3nn.IndexSymmetry

theorem filter_dash {w : List Char} (h : '-' ∉ w) : w.filter (· ≠ '-') = w := by
  rw [List.filter_eq_self]
  intro c hc
  have : c ≠ '-' := fun e => h (e ▸ hc)
  simpa using this

theorem text_split : ∀ (parts : List Part), parts ≠ [] → Clean parts → splitOn '=' (text parts) = parts.map Part.text
  | [], h, _ => absurd rfl h
  | [q], _, hc => by
    have := hc q (by simp)
    unfold text
    rw [splitOn_of_not_mem]
    · rfl
    · unfold Part.text
      split
      · simp [this.2]
      · exact this.2
  | q :: q' :: qs, _, hc => by
    have := hc q (by simp)
    unfold text
    rw [splitOn_append, text_split (q' :: qs) (by simp) (fun r hr => hc r (List.mem_cons_of_mem _ hr))]
    · rfl
    · unfold Part.text
      split
      · simp [this.2]
      · exact this.2

def isign (q : Part) : ℤ := if q.1 then -1 else 1

theorem isign_cast (q : Part) : (isign q : ℝ) = q.sign := by
  unfold isign Part.sign; split <;> simp

theorem isign_cases (q : Part) : isign q = 1 ∨ isign q = -1 := by
  unfold isign; split <;> simp

theorem formulas_text {parts : List Part} (h : parts ≠ []) (hc : Clean parts) : formulas (text parts) = parts.map fun q => (isign q, q.2) := by
  unfold formulas
  rw [text_split parts h hc, List.map_map]
  refine List.map_congr_left fun q hq => ?_
  obtain ⟨h1, _⟩ := hc q hq
  simp only [Function.comp_apply, Part.text, isign]
  by_cases hq1 : q.1
  · simp only [hq1, if_true, List.head?_cons, List.filter_cons]
    simp
    intro a ha e
    exact h1 (e ▸ ha)
  · simp only [hq1]
    rw [if_neg, filter_dash (by simpa using h1)]
    · simp
    · simp only [Bool.false_eq_true, if_false]
      intro e
      exact h1 (List.mem_of_mem_head? e)

theorem permute_generator {f0 f : List Char} (hm : ∀ c ∈ f0, c ∈ f) (v : Char → ℕ) : permute (f.map v) (f0.map f.idxOf) = f0.map v := by
  unfold permute
  rw [List.map_map]
  refine List.map_congr_left fun c hc => ?_
  have hlt : f.idxOf c < f.length := List.idxOf_lt_length_iff.mpr (hm c hc)
  simp only [Function.comp_apply]
  rw [List.getD_eq_getElem _ _ (by simpa using hlt), List.getElem_map, List.getElem_idxOf hlt]

/-- Every multi-index is a valuation of the letters. -/
theorem exists_valuation {f : List Char} (hf : f.Nodup) {d : Char → ℕ} {x : List ℕ} (hx : x ∈ fullBase (f.map d)) : ∃ v : Char → ℕ, (∀ c ∈ f, v c < d c) ∧ x = f.map v := by
  rw [mem_fullBase, forall₂_iff] at hx
  simp only [List.length_map] at hx
  refine ⟨fun c => x.getD (f.idxOf c) 0, fun c hc => ?_, ?_⟩
  · have hlt : f.idxOf c < f.length := List.idxOf_lt_length_iff.mpr hc
    have := hx.2 _ hlt
    rwa [List.getD_eq_getElem (f.map d) _ (by simpa using hlt), List.getElem_map, List.getElem_idxOf hlt] at this
  · apply List.ext_getElem (by simp [hx.1])
    intro i h1 h2
    rw [List.getElem_map]
    have h3 : i < f.length := by simpa using h2
    rw [List.Nodup.idxOf_getElem hf i h3, List.getD_eq_getElem _ _ h1]

theorem valuation_mem {f : List Char} {d v : Char → ℕ} (h : ∀ c ∈ f, v c < d c) : f.map v ∈ fullBase (f.map d) := by
  rw [mem_fullBase]
  induction f with
  | nil => simp
  | cons a f ih =>
    simp only [List.map_cons]
    exact .cons (h a (by simp)) (ih fun c hc => h c (by simp [hc]))

/-- Result of `germinate_perm_repr` on a well-formed formula. -/
theorem germinate_ok {f0 : List Char} {rest : List Part} (hc : Clean ((false, f0) :: rest)) (hw : WellFormed f0 rest) {fuel : ℕ} (hf : 2 * factorial f0.length < fuel) :
    ∃ G, germinatePermRepr fuel (text ((false, f0) :: rest)) = some (.ok (f0, G)) ∧ IsSGroup f0.length G ∧
      (∀ q ∈ (false, f0) :: rest, ((isign q, f0.map q.2.idxOf) : SPerm) ∈ G) ∧
      (∀ T : SPerm → Prop, (∀ q ∈ (false, f0) :: rest, T (isign q, f0.map q.2.idxOf)) → (∀ q, IsS f0.length q → T q → T (sinv q)) →
        (∀ q r, IsS f0.length q → IsS f0.length r → T q → T r → T (scomp q r)) → ∀ q ∈ G, T q) := by
  have hall : ∀ q ∈ (false, f0) :: rest, q.2.Perm f0 := by
    intro q hq
    rcases List.mem_cons.mp hq with rfl | hq
    · exact List.Perm.refl _
    · exact hw.2 q hq
  have hS : ∀ q ∈ ((((false, f0) :: rest).map fun q => ((isign q, f0.map q.2.idxOf) : SPerm)).eraseDups), IsS f0.length q := by
    intro r hr
    rw [List.mem_eraseDups, List.mem_map] at hr
    obtain ⟨q, hq, rfl⟩ := hr
    have hp := hall q hq
    exact ⟨isign_cases q, isPermOf_generator hw.1 (hp.nodup_iff.mpr hw.1) fun c => hp.mem_iff⟩
  obtain ⟨g, h1, h2, h3, h4, h5, h6, h7⟩ := close_spec fuel _ (nodup_eraseDups _) hS (by omega)
  have hgen : ∀ q ∈ (false, f0) :: rest, ((isign q, f0.map q.2.idxOf) : SPerm) ∈ g := fun q hq =>
    h4 _ (List.mem_eraseDups.mpr (List.mem_map.mpr ⟨q, hq, rfl⟩))
  refine ⟨g.toFinset, ?_, ?_, ?_, ?_⟩
  · unfold germinatePermRepr
    rw [formulas_text (by simp) hc]
    simp only [List.map_cons]
    rw [if_neg (by simp [isign]), if_neg]
    · have : ((isign (false, f0), f0) :: rest.map fun q => (isign q, q.2)).map (generator f0) = ((false, f0) :: rest).map fun q => ((isign q, f0.map q.2.idxOf) : SPerm) := by
        simp [generator]
      rw [← List.map_cons (f := generator f0), this, h1]
    · rw [Bool.not_eq_true, List.any_eq_false]
      intro r hr
      have : ∃ q ∈ (false, f0) :: rest, r = (isign q, q.2) := by
        rcases List.mem_cons.mp hr with rfl | hr
        · exact ⟨(false, f0), by simp, rfl⟩
        · obtain ⟨q, hq, rfl⟩ := List.mem_map.mp hr
          exact ⟨q, by simp [hq], rfl⟩
      obtain ⟨q, hq, rfl⟩ := this
      have hp := hall q hq
      rw [Bool.not_eq_true, badFormula_false]
      exact ⟨hp.nodup_iff.mpr hw.1, fun c => hp.mem_iff, hp.length_eq.symm⟩
  · refine ⟨?_, ?_, ?_, ?_, ?_⟩
    · exact fun q hq => (h3 q (List.mem_toFinset.mp hq)).1
    · exact fun q hq => (h3 q (List.mem_toFinset.mp hq)).2
    · have := hgen (false, f0) (by simp)
      rw [List.mem_toFinset]
      have e : f0.map f0.idxOf = identity f0.length := by
        apply List.ext_getElem (by simp [identity])
        intro i h1 h2
        simp only [List.getElem_map, identity, List.getElem_range]
        exact List.Nodup.idxOf_getElem hw.1 i _
      simpa [isign, e] using this
    · exact fun q hq => List.mem_toFinset.mpr (h5 q (List.mem_toFinset.mp hq))
    · exact fun q hq r hr => List.mem_toFinset.mpr (h6 q (List.mem_toFinset.mp hq) r (List.mem_toFinset.mp hr))
  · exact fun q hq => List.mem_toFinset.mpr (hgen q hq)
  · intro T ht hi hcm q hq
    refine h7 T (fun r hr => ?_) hi hcm q (List.mem_toFinset.mp hq)
    rw [List.mem_eraseDups, List.mem_map] at hr
    obtain ⟨q', hq', rfl⟩ := hr
    exact ht q' hq'

theorem germinate_err {f0 : List Char} {b : Bool} {rest : List Part} (hc : Clean ((b, f0) :: rest)) (fuel : ℕ) :
    (b = true → germinatePermRepr fuel (text ((b, f0) :: rest)) = some (.error .assertion)) ∧
    (b = false → ¬ WellFormed f0 rest → germinatePermRepr fuel (text ((b, f0) :: rest)) = some (.error .runtimeError)) := by
  constructor
  · rintro rfl
    unfold germinatePermRepr
    rw [formulas_text (by simp) hc]
    simp only [List.map_cons]
    rw [if_pos (by simp [isign])]
  · rintro rfl hw
    unfold germinatePermRepr
    rw [formulas_text (by simp) hc]
    simp only [List.map_cons]
    rw [if_neg (by simp [isign]), if_pos]
    by_contra hcon
    rw [Bool.not_eq_true, List.any_eq_false] at hcon
    apply hw
    have h0 := hcon (isign (false, f0), f0) (by simp)
    rw [Bool.not_eq_true, badFormula_false] at h0
    refine ⟨h0.1, fun q hq => ?_⟩
    have := hcon (isign q, q.2) (List.mem_cons_of_mem _ (List.mem_map.mpr ⟨q, hq, rfl⟩))
    rw [Bool.not_eq_true, badFormula_false] at this
    exact (List.perm_ext_iff_of_nodup this.1 h0.1).mpr this.2.1

/-- Compatibility of the dimensions. -/
theorem compat_of {f0 : List Char} {rest : List Part} {d : Char → ℕ} {G : Finset SPerm} (hw : WellFormed f0 rest) (hd : ∀ q ∈ rest, q.2.map d = f0.map d)
    (hmin : ∀ T : SPerm → Prop, (∀ q ∈ (false, f0) :: rest, T (isign q, f0.map q.2.idxOf)) → (∀ q, IsS f0.length q → T q → T (sinv q)) →
        (∀ q r, IsS f0.length q → IsS f0.length r → T q → T r → T (scomp q r)) → ∀ q ∈ G, T q) : Compat G (f0.map d) := by
  refine hmin (fun q => permute (f0.map d) q.2 = f0.map d) ?_ ?_ ?_
  · intro q hq
    simp only
    have : q.2.map d = f0.map d ∧ ∀ c ∈ f0, c ∈ q.2 := by
      rcases List.mem_cons.mp hq with rfl | hq
      · exact ⟨rfl, fun _ h => h⟩
      · exact ⟨hd q hq, fun c h => (hw.2 q hq).mem_iff.mpr h⟩
    conv_lhs => rw [← this.1]
    exact permute_generator this.2 d
  · intro q hq h
    show permute (f0.map d) (Perm.inv q.2) = _
    conv_lhs => rw [← h]
    rw [permute_comp hq.2 (inv_perm hq.2), comp_inv hq.2, permute_id (by simp)]
  · intro q r hq hr h h'
    show permute (f0.map d) (Perm.comp q.2 r.2) = _
    rw [← permute_comp hq.2 hr.2, h, h']

/-- Symmetry under the formula is symmetry under the group. -/
theorem symmetric_iff {f0 : List Char} {rest : List Part} {d : Char → ℕ} {G : Finset SPerm} (hw : WellFormed f0 rest) (hd : ∀ q ∈ rest, q.2.map d = f0.map d)
    (hG : IsSGroup f0.length G) (hgen : ∀ q ∈ (false, f0) :: rest, ((isign q, f0.map q.2.idxOf) : SPerm) ∈ G)
    (hmin : ∀ T : SPerm → Prop, (∀ q ∈ (false, f0) :: rest, T (isign q, f0.map q.2.idxOf)) → (∀ q, IsS f0.length q → T q → T (sinv q)) →
        (∀ q r, IsS f0.length q → IsS f0.length r → T q → T r → T (scomp q r)) → ∀ q ∈ G, T q) (T : List ℕ → ℝ) :
    Symmetric d f0 rest T ↔ Sym G (f0.map d) T := by
  have hcompat := compat_of hw hd hmin
  have hss : ∀ q : Part, (isign q : ℝ) * isign q = 1 := fun q => by exact_mod_cast sq_sign (isign_cases q)
  constructor
  · intro hs
    have hmin' := hmin (fun q => permute (f0.map d) q.2 = f0.map d ∧ ∀ x ∈ fullBase (f0.map d), T x = q.1 * T (permute x q.2)) ?_ ?_ ?_
    · exact fun q hq => (hmin' q hq).2
    · intro q hq
      refine ⟨hcompat _ (hgen q hq), fun x hx => ?_⟩
      rcases List.mem_cons.mp hq with rfl | hq
      · simp only [isign, Bool.false_eq_true, if_false, Int.cast_one, one_mul]
        obtain ⟨v, _, rfl⟩ := exists_valuation hw.1 hx
        rw [permute_generator (fun _ h => h)]
      · have hp := hw.2 q hq
        rw [← hd q hq] at hx
        obtain ⟨v, hv, rfl⟩ := exists_valuation (hp.nodup_iff.mpr hw.1) hx
        have := hs q hq v (fun c hc => hv c (hp.mem_iff.mpr hc))
        simp only
        rw [permute_generator (fun c h => hp.mem_iff.mpr h), this, ← isign_cast, ← mul_assoc, hss, one_mul]
    · rintro q hq ⟨h1, h2⟩
      have h3 : permute (f0.map d) (sinv q).2 = f0.map d := by
        show permute (f0.map d) (Perm.inv q.2) = _
        conv_lhs => rw [← h1]
        rw [permute_comp hq.2 (inv_perm hq.2), comp_inv hq.2, permute_id (by simp)]
      refine ⟨h3, fun x hx => ?_⟩
      have hbox : permute x (sinv q).2 ∈ fullBase (f0.map d) := by
        -- direct
        rw [mem_fullBase, forall₂_iff] at hx ⊢
        have hip := inv_perm hq.2
        have hl : (sinv q).2.length = f0.length := len_of hip
        refine ⟨by unfold permute; rw [List.length_map, hl, List.length_map], fun i hi => ?_⟩
        rw [List.length_map] at hi
        have hlt : (sinv q).2.getD i 0 < f0.length := getD_lt hip hi
        have e1 : (permute x (sinv q).2).getD i 0 = x.getD ((sinv q).2.getD i 0) 0 := by
          unfold permute
          rw [List.getD_eq_getElem _ _ (by rw [List.length_map, hl]; omega), List.getElem_map, List.getD_eq_getElem (sinv q).2 _ (by rw [hl]; omega)]
        have e2 : (f0.map d).getD i 0 = (f0.map d).getD ((sinv q).2.getD i 0) 0 := by
          conv_lhs => rw [← h3]
          unfold permute
          rw [List.getD_eq_getElem _ _ (by rw [List.length_map, hl]; omega), List.getElem_map, List.getD_eq_getElem (sinv q).2 _ (by rw [hl]; omega)]
        rw [e1, e2]
        exact hx.2 _ (by rw [List.length_map]; exact hlt)
      have := h2 _ hbox
      have e : permute (permute x (sinv q).2) q.2 = x := by
        show permute (permute x (Perm.inv q.2)) q.2 = x
        rw [permute_comp (inv_perm hq.2) hq.2, inv_comp hq.2, permute_id]
        have := List.Forall₂.length_eq (mem_fullBase.mp hx)
        simpa using this
      rw [e] at this
      rw [this]
      show T x = (q.1 : ℝ) * (q.1 * T x)
      have h1 : (q.1 : ℝ) * q.1 = 1 := by exact_mod_cast sq_sign hq.1
      rw [← mul_assoc, h1, one_mul]
    · rintro q r hq hr ⟨h1, h2⟩ ⟨h3, h4⟩
      refine ⟨?_, fun x hx => ?_⟩
      · show permute (f0.map d) (Perm.comp q.2 r.2) = _
        rw [← permute_comp hq.2 hr.2, h1, h3]
      · have hbox : permute x q.2 ∈ fullBase (f0.map d) := by
          rw [mem_fullBase, forall₂_iff] at hx ⊢
          have hl : q.2.length = f0.length := len_of hq.2
          refine ⟨by unfold permute; rw [List.length_map, hl, List.length_map], fun i hi => ?_⟩
          rw [List.length_map] at hi
          have hlt : q.2.getD i 0 < f0.length := getD_lt hq.2 hi
          have e1 : (permute x q.2).getD i 0 = x.getD (q.2.getD i 0) 0 := by
            unfold permute
            rw [List.getD_eq_getElem _ _ (by rw [List.length_map, hl]; omega), List.getElem_map, List.getD_eq_getElem q.2 _ (by rw [hl]; omega)]
          have e2 : (f0.map d).getD i 0 = (f0.map d).getD (q.2.getD i 0) 0 := by
            conv_lhs => rw [← h1]
            unfold permute
            rw [List.getD_eq_getElem _ _ (by rw [List.length_map, hl]; omega), List.getElem_map, List.getD_eq_getElem q.2 _ (by rw [hl]; omega)]
          rw [e1, e2]
          exact hx.2 _ (by rw [List.length_map]; exact hlt)
        show T x = ((q.1 * r.1 : ℤ) : ℝ) * T (permute x (Perm.comp q.2 r.2))
        rw [← permute_comp hq.2 hr.2, h2 x hx, h4 _ hbox]
        push_cast; ring
  · intro hs q hq v hv
    have hp := hw.2 q hq
    have hx : q.2.map v ∈ fullBase (f0.map d) := by
      rw [← hd q hq]
      exact valuation_mem fun c hc => hv c (hp.mem_iff.mp hc)
    have := hs _ (hgen q (List.mem_cons_of_mem _ hq)) _ hx
    simp only at this
    rw [permute_generator (fun c h => hp.mem_iff.mpr h)] at this
    rw [this, ← isign_cast, ← mul_assoc, hss, one_mul]

end E3nn.PermRepr

import Verif.Lemmas.RTPFront
import Verif.Props.C95
import Verif.Props.C55

/-!
# C96: `reduced_tensor_product_basis` called with a formula
-/

namespace E3nn.RTP

open E3nn.IArr E3nn.LinAlg E3nn.PermRepr E3nn.Perm E3nn.IndexSymmetry

theorem get_iff {kw : Dict} (hn : (kw.map Prod.fst).Nodup) {k : List Char} {v : Irreps} : Dict.get kw k = some v ↔ (k, v) ∈ kw := by
  induction kw with
  | nil => simp [Dict.get]
  | cons q kw ih =>
    rw [List.map_cons, List.nodup_cons] at hn
    have ih := ih hn.2
    unfold Dict.get at ih ⊢
    rw [List.find?_cons]
    by_cases hq : q.1 = k
    · have : (q.1 == k) = true := by simpa using hq
      rw [this]
      simp only [Option.map_some, Option.some.injEq, List.mem_cons]
      constructor
      · intro h; left; rw [← hq, ← h]
      · rintro (h | h)
        · rw [← h]
        · exact absurd (hq ▸ List.mem_map_of_mem (f := Prod.fst) h) hn.1
    · have : (q.1 == k) = false := by simpa using hq
      rw [this]
      simp only [List.mem_cons]
      rw [ih]
      constructor
      · exact Or.inr
      · rintro (h | h)
        · exact absurd (by rw [← h]) hq
        · exact h

/-- Two letters exchanged by the group. -/
def Linked (names : List Char) (G : Finset SPerm) (c c' : Char) : Prop :=
  c = c' ∨ ∃ q ∈ G, ∃ i < names.length, c = names.getD i ' ' ∧ c' = names.getD (q.2.getD i 0) ' '

theorem linked_equiv {names : List Char} {G : Finset SPerm} (hG : IsSGroup names.length G) (hn : names.Nodup) : Equivalence (Linked names G) := by
  have inj : ∀ {i j}, i < names.length → j < names.length → names.getD i ' ' = names.getD j ' ' → i = j := by
    intro i j hi hj h
    rw [List.getD_eq_getElem _ _ hi, List.getD_eq_getElem _ _ hj] at h
    exact (List.Nodup.getElem_inj_iff hn).mp h
  refine ⟨fun c => Or.inl rfl, ?_, ?_⟩
  · rintro c c' (rfl | ⟨q, hq, i, hi, rfl, rfl⟩)
    · exact Or.inl rfl
    · have hp := hG.perm q hq
      refine Or.inr ⟨_, hG.inv q hq, q.2.getD i 0, getD_lt hp hi, rfl, ?_⟩
      simp only
      rw [inv_getD hp (getD_lt hp hi), idxOf_getD hp hi]
  · rintro c c' c'' (rfl | ⟨q, hq, i, hi, rfl, rfl⟩) h
    · exact h
    · rcases h with h | ⟨r, hr, j, hj, h1, rfl⟩
      · exact Or.inr ⟨q, hq, i, hi, rfl, h.symm⟩
      · have hp := hG.perm q hq
        have hpr := hG.perm r hr
        have e := inj (getD_lt hp hi) hj h1
        refine Or.inr ⟨_, hG.comp r hr q hq, i, hi, rfl, ?_⟩
        simp only
        rw [comp_getD hpr hi, e]

/-- The pairs of letters over which the loops run. -/
theorem mem_pairs {names : List Char} {G : Finset SPerm} (hG : IsSGroup names.length G) {order : List SPerm} (ho : ∀ q, q ∈ order ↔ q ∈ G) {c c' : Char} :
    (c, c') ∈ (order.flatMap fun q => names.zip (q.2.map fun i => names.getD i ' ')) ↔ ∃ q ∈ G, ∃ i < names.length, c = names.getD i ' ' ∧ c' = names.getD (q.2.getD i 0) ' ' := by
  rw [List.mem_flatMap]
  constructor
  · rintro ⟨q, hq, h⟩
    have hq := (ho q).mp hq
    obtain ⟨i, hi, e⟩ := List.getElem_of_mem h
    rw [List.getElem_zip] at e
    simp only [List.getElem_map, Prod.mk.injEq] at e
    have hl := len_of (hG.perm q hq)
    simp only [List.length_zip, List.length_map] at hi
    refine ⟨q, hq, i, by omega, ?_, ?_⟩
    · rw [List.getD_eq_getElem _ _ (by omega)]; exact e.1.symm
    · rw [List.getD_eq_getElem q.2 _ (by omega)]; exact e.2.symm
  · rintro ⟨q, hq, i, hi, rfl, rfl⟩
    have hl := len_of (hG.perm q hq)
    refine ⟨q, (ho q).mpr hq, ?_⟩
    have hi' : i < (names.zip (q.2.map fun i => names.getD i ' ')).length := by simp only [List.length_zip, List.length_map]; omega
    have := List.getElem_mem hi'
    rw [List.getElem_zip] at this
    rw [List.getD_eq_getElem names _ hi, List.getD_eq_getElem q.2 _ (by omega)]
    simpa using this

/-- The formula's group exchanges the letters that must have the same irreps. -/
theorem admissible_linked {names : List Char} {rest : List Part} {G : Finset SPerm} {A : Type} (a : Char → A) (hw : WellFormed names rest)
    (hG : IsSGroup names.length G)
    (hgen : ∀ q ∈ (false, names) :: rest, ((isign q, names.map q.2.idxOf) : SPerm) ∈ G)
    (hmin : ∀ T : SPerm → Prop, (∀ q ∈ (false, names) :: rest, T (isign q, names.map q.2.idxOf)) → (∀ q, IsS names.length q → T q → T (sinv q)) →
        (∀ q r, IsS names.length q → IsS names.length r → T q → T r → T (scomp q r)) → ∀ q ∈ G, T q) :
    (∀ q ∈ rest, q.2.map a = names.map a) ↔ ∀ q ∈ G, ∀ i < names.length, a (names.getD (q.2.getD i 0) ' ') = a (names.getD i ' ') := by
  have hall : ∀ q ∈ (false, names) :: rest, q.2.Perm names := by
    intro q hq
    rcases List.mem_cons.mp hq with rfl | hq
    · exact List.Perm.refl _
    · exact hw.2 q hq
  have hidx : ∀ q ∈ (false, names) :: rest, ∀ i (hi : i < names.length), (names.map q.2.idxOf).getD i 0 = q.2.idxOf names[i] ∧ q.2.idxOf names[i] < q.2.length := by
    intro q hq i hi
    have hm : names[i] ∈ q.2 := (hall q hq).mem_iff.mpr (List.getElem_mem hi)
    rw [List.getD_eq_getElem _ _ (by simpa using hi), List.getElem_map]
    exact ⟨rfl, List.idxOf_lt_length_of_mem hm⟩
  constructor
  · intro h
    refine hmin (fun q => ∀ i < names.length, a (names.getD (q.2.getD i 0) ' ') = a (names.getD i ' ')) ?_ ?_ ?_
    · intro q hq i hi
      obtain ⟨e, hlt⟩ := hidx q hq i hi
      have hl := (hall q hq).length_eq
      have hma : q.2.map a = names.map a := by
        rcases List.mem_cons.mp hq with rfl | hq
        · rfl
        · exact h q hq
      simp only
      rw [e, List.getD_eq_getElem _ _ (by omega), List.getD_eq_getElem _ _ hi]
      have h2 : (q.2.map a)[q.2.idxOf names[i]]'(by simpa using hlt) = (names.map a)[q.2.idxOf names[i]]'(by simp; omega) := by congr 1
      rw [List.getElem_map, List.getElem_map, List.getElem_idxOf] at h2
      exact h2.symm
    · intro q hq h i hi
      have := h (q.2.idxOf i) (by rw [← inv_getD hq.2 hi]; exact getD_lt (inv_perm hq.2) hi)
      rw [getD_idxOf hq.2 hi] at this
      show a (names.getD ((Perm.inv q.2).getD i 0) ' ') = _
      rw [inv_getD hq.2 hi]; exact this.symm
    · intro q r hq hr h1 h2 i hi
      show a (names.getD ((Perm.comp q.2 r.2).getD i 0) ' ') = _
      rw [comp_getD hq.2 hi, h1 _ (getD_lt hr.2 hi), h2 i hi]
  · intro h q hq
    have hq' : q ∈ (false, names) :: rest := List.mem_cons_of_mem _ hq
    have hp := hall q hq'
    apply List.ext_getElem (by simpa using hp.length_eq)
    intro k h1 h2
    rw [List.length_map] at h1 h2
    rw [List.getElem_map, List.getElem_map]
    have hm : q.2[k] ∈ names := hp.mem_iff.mp (List.getElem_mem h1)
    have hi := List.idxOf_lt_length_of_mem hm
    have := h _ (hgen q hq') _ hi
    simp only at this
    rw [(hidx q hq' _ hi).1, List.getD_eq_getElem names ' ' hi, List.getElem_idxOf, List.Nodup.idxOf_getElem (hp.nodup_iff.mpr hw.1), List.getD_eq_getElem _ _ h2] at this
    exact this.symm

/-- **C96 (irreps of the indices).** The irreps given for some of the letters are completed to all letters of the formula exactly when
this is possible in one way: whatever the order in which the set of symmetries is iterated, the result is `irr` if and only if every keyword is a letter of the
formula and `irr` is the value of every admissible assignment, of which there is at least one; otherwise a `RuntimeError` is raised (a `TypeError` if a keyword is longer
than one character). -/
theorem C96_irreps (names : List Char) (rest : List Part) (hc : Clean ((false, names) :: rest)) (hw : WellFormed names rest) (fuel : ℕ) (hf : 2 * factorial names.length < fuel)
    (kw : Dict) (hk : (kw.map Prod.fst).Nodup) :
    ∃ G, germinatePermRepr fuel (text ((false, names) :: rest)) = some (.ok (names, G)) ∧ ∀ order : List SPerm, (∀ q, q ∈ order ↔ q ∈ G) →
      ((∃ q ∈ kw, q.1.length ≠ 1) → irrepsTuple names order kw = .error .typeError) ∧
      ((∀ q ∈ kw, q.1.length = 1) →
        (∀ irr, irrepsTuple names order kw = .ok irr ↔
          (∀ c v, ([c], v) ∈ kw → c ∈ names) ∧ (∃ a, Admissible names rest kw a) ∧ ∀ a, Admissible names rest kw a → names.map a = irr) ∧
        ∀ e, irrepsTuple names order kw = .error e → e = .runtimeError) := by
  obtain ⟨G, h1, hG, hgen, hmin⟩ := germinate_ok hc hw hf
  refine ⟨G, h1, fun order ho => ⟨?_, ?_⟩⟩
  · rintro ⟨q, hq, hl⟩
    unfold irrepsTuple
    rw [if_pos]
    rw [List.any_eq_true]
    exact ⟨q, hq, by simpa using hl⟩
  intro hlen
  have hS := linked_equiv hG hw.1
  have hadm : ∀ a : Char → Irreps, Admissible names rest kw a ↔ (∀ c v, Dict.get kw [c] = some v → a c = v) ∧ ∀ c c', Linked names G c c' → a c = a c' := by
    intro a
    unfold Admissible
    rw [admissible_linked a hw hG hgen hmin]
    refine and_congr ?_ ?_
    · simp only [get_iff hk]
    · constructor
      · rintro h c c' (rfl | ⟨q, hq, i, hi, rfl, rfl⟩)
        · rfl
        · exact (h q hq i hi).symm
      · intro h q hq i hi
        exact (h _ _ (Or.inr ⟨q, hq, i, hi, rfl, rfl⟩)).symm
  have hstart : irrepsTuple names order kw = match unifyAll names order kw with
      | .error e => .error e
      | .ok d =>
        if names.any fun c => (Dict.get d [c]).isNone then .error .runtimeError
        else if d.any fun q => !(names.any fun c => q.1 == [c]) then .error .runtimeError
        else .ok (names.map fun c => (Dict.get d [c]).getD []) := by
    have hno : ¬ (kw.any fun q => q.1.length != 1) = true := by
      rw [List.any_eq_true]
      rintro ⟨q, hq, hl⟩
      have := hlen q hq
      simp [this] at hl
    unfold irrepsTuple
    rw [if_neg hno]
    cases unifyAll names order kw <;> rfl
  rw [hstart, unifyAll_eq]
  have hpairs : ∀ ij ∈ order.flatMap fun q => names.zip (q.2.map fun i => names.getD i ' '), Linked names G ij.1 ij.2 := by
    intro ij hij
    exact Or.inr ((mem_pairs hG ho (c := ij.1) (c' := ij.2)).mp hij)
  rcases loop_spec hS kw (order.flatMap fun q => names.zip (q.2.map fun i => names.getD i ' ')) kw hpairs (fun c v h => ⟨c, hS.refl c, h⟩) (fun _ _ h => h) with
      ⟨e, c, c', v, v', s, k1, k2, hne⟩ | ⟨d, e, g1, g2, -, g4, g5⟩
  · rw [e]
    refine ⟨fun irr => ⟨by simp, ?_⟩, by simp⟩
    rintro ⟨-, ⟨a, ha⟩, -⟩
    obtain ⟨a1, a2⟩ := (hadm a).mp ha
    exact absurd ((a1 c v k1).symm.trans ((a2 c c' s).trans (a1 c' v' k2))) hne
  · rw [e]
    simp only
    -- every letter linked to a given one has a value
    have hval : ∀ c c0 v, c ∈ names → Linked names G c0 c → Dict.get kw [c0] = some v → Dict.get d [c] = some v := by
      rintro c c0 v hcn (rfl | h) hv
      · exact g2 _ _ hv
      · exact g4 (c0, c) ((mem_pairs hG ho).mpr h) v hv
    have hcons : ∀ c c' v v', Linked names G c c' → Dict.get kw [c] = some v → Dict.get kw [c'] = some v' → v = v' := by
      rintro c c' v v' (rfl | h) k1 k2
      · rw [k1] at k2; exact Option.some.inj k2
      · have := g4 (c, c') ((mem_pairs hG ho).mpr h) v k1
        rw [g2 _ _ k2] at this
        exact (Option.some.inj this).symm
    by_cases hnone : names.any fun c => (Dict.get d [c]).isNone
    · rw [if_pos hnone]
      refine ⟨fun irr => ⟨by simp, ?_⟩, by simp⟩
      rintro ⟨-, ⟨a, ha⟩, hu⟩
      obtain ⟨c, hcn, hc⟩ := List.any_eq_true.mp hnone
      obtain ⟨a1, a2⟩ := (hadm a).mp ha
      -- another assignment
      classical
      set a' : Char → Irreps := fun x => if Linked names G c x then ⟨1, ⟨0, .e⟩⟩ :: a x else a x with ha'
      have hadm' : Admissible names rest kw a' := by
        rw [hadm]
        constructor
        · intro x v hx
          rw [ha']
          simp only
          rw [if_neg, a1 x v hx]
          intro hl
          have := hval c x v hcn (hS.symm hl) hx
          rw [this] at hc
          simp at hc
        · intro x y hxy
          rw [ha']
          simp only
          have : Linked names G c x ↔ Linked names G c y := ⟨fun h => hS.trans h hxy, fun h => hS.trans h (hS.symm hxy)⟩
          simp only [this, a2 x y hxy]
      have e1 := (hu a ha).trans (hu a' hadm').symm
      have e2 := List.map_inj_left.mp e1 c hcn
      rw [ha'] at e2
      simp only [if_pos (hS.refl c)] at e2
      have := congrArg List.length e2
      simp at this
    · rw [if_neg hnone]
      have hsome : ∀ c ∈ names, ∃ v, Dict.get d [c] = some v := by
        intro c hcn
        rw [List.any_eq_true] at hnone
        push Not at hnone
        have := hnone c hcn
        rw [ne_eq, Option.isNone_iff_eq_none] at this
        exact Option.ne_none_iff_exists'.mp this
      by_cases hkey : d.any fun q => !(names.any fun c => q.1 == [c])
      · rw [if_pos hkey]
        refine ⟨fun irr => ⟨by simp, ?_⟩, by simp⟩
        rintro ⟨hin, -, -⟩
        obtain ⟨q, hq, hq2⟩ := List.any_eq_true.mp hkey
        have hg : Dict.get d q.1 ≠ none := by
          have := (Dict.get_isSome_iff d q.1).mpr ⟨q, hq, rfl⟩
          exact Option.isSome_iff_ne_none.mp this
        have hno : ∀ c ∈ names, q.1 ≠ [c] := by simpa using hq2
        rcases g5 q.1 hg with h | ⟨ij, hij, h⟩
        · obtain ⟨v, hv⟩ := Option.ne_none_iff_exists'.mp h
          have hm := (get_iff hk).mp hv
          have hl := hlen _ hm
          obtain ⟨c, hc⟩ := List.length_eq_one_iff.mp hl
          simp only at hc
          rw [hc] at hm
          exact absurd hc (hno c (hin c v hm))
        · obtain ⟨r, hr, i, hi, e1, e2⟩ := (mem_pairs hG ho (c := ij.1) (c' := ij.2)).mp hij
          have hmem : ∀ i < names.length, names.getD i ' ' ∈ names := fun i hi => by rw [List.getD_eq_getElem _ _ hi]; exact List.getElem_mem hi
          rcases h with h | h
          · exact absurd h (hno _ (e1 ▸ hmem i hi))
          · exact absurd h (hno _ (e2 ▸ hmem _ (getD_lt (hG.perm r hr) hi)))
      · rw [if_neg hkey]
        have hkeys : ∀ c v, ([c], v) ∈ kw → c ∈ names := by
          intro c v h
          rw [List.any_eq_true] at hkey
          push Not at hkey
          have h2 := g2 _ _ ((get_iff hk).mpr h)
          obtain ⟨q, hq, e⟩ := (Dict.get_isSome_iff d [c]).mp (by rw [h2]; rfl)
          have h3 := hkey q hq
          rw [e] at h3
          simpa using h3
        -- the assignment found
        set a0 : Char → Irreps := fun c => (Dict.get d [c]).getD [] with ha0
        have hA : ∀ a, Admissible names rest kw a → names.map a = names.map a0 := by
          intro a ha
          obtain ⟨a1, a2⟩ := (hadm a).mp ha
          apply List.map_congr_left
          intro c hcn
          obtain ⟨v, hv⟩ := hsome c hcn
          obtain ⟨c0, s0, k0⟩ := g1 c v hv
          rw [ha0]
          simp only [hv, Option.getD_some]
          rw [← a2 c0 c s0, a1 c0 v k0]
        have hadm0 : Admissible names rest kw a0 := by
          rw [hadm]
          constructor
          · intro c v h
            rw [ha0]
            simp only [g2 _ _ h, Option.getD_some]
          · rintro c c' (rfl | h)
            · rfl
            · have hl : Linked names G c c' := Or.inr h
              obtain ⟨q, hq, i, hi, e1, e2⟩ := h
              have hmem : ∀ i < names.length, names.getD i ' ' ∈ names := fun i hi => by rw [List.getD_eq_getElem _ _ hi]; exact List.getElem_mem hi
              obtain ⟨v, hv⟩ := hsome c (e1 ▸ hmem i hi)
              obtain ⟨v', hv'⟩ := hsome c' (e2 ▸ hmem _ (getD_lt (hG.perm q hq) hi))
              obtain ⟨c0, s0, k0⟩ := g1 c v hv
              obtain ⟨c1, s1, k1⟩ := g1 c' v' hv'
              rw [ha0]
              simp only [hv, hv', Option.getD_some]
              exact hcons c0 c1 v v' (hS.trans s0 (hS.trans hl (hS.symm s1))) k0 k1
        refine ⟨fun irr => ⟨fun h => ?_, ?_⟩, by simp⟩
        · have h := Except.ok.inj h
          exact ⟨hkeys, ⟨a0, hadm0⟩, fun a ha => (hA a ha).trans h⟩
        · rintro ⟨-, -, hu⟩
          rw [← hu a0 hadm0]

theorem permute_map_range {n : ℕ} {p : List ℕ} (hp : p.Perm (List.range n)) (σ : ℕ → ℕ) :
    permute ((List.range n).map σ) p = (List.range n).map fun i => σ (p.getD i i) := by
  have hl := len_of hp
  unfold permute
  apply List.ext_getElem (by simp [hl])
  intro i h1 h2
  rw [List.length_map] at h1
  have hlt : p[i] < n := (mem_of hp _).mp (List.getElem_mem h1)
  rw [List.getElem_map, List.getElem_map, List.getElem_range, List.getD_eq_getElem _ _ (by simpa using hlt), List.getElem_map, List.getElem_range,
    List.getD_eq_getElem p i h1]

/-- The two ways to say that a tensor has the symmetries of a group. -/
theorem sym_iff {irr : List Irreps} {G : Finset SPerm} (hG : IsSGroup irr.length G) (T : List ℕ → ℝ) :
    Sym G (irr.map Irreps.dim) T ↔ Symmetric irr G fun σ => T ((List.range irr.length).map σ) := by
  constructor
  · intro h q hq σ hσ
    have h2 := h q hq _ (mem_of_inR hσ)
    rw [permute_map_range (hG.perm q hq)] at h2
    simp only
    rw [h2, ← mul_assoc, cast_sq hG hq, one_mul]
  · intro h q hq x hx
    have h2 := h q hq (idx x) (idx_inR hx)
    have hl : x.length = irr.length := by simpa using len_of_mem rfl hx
    have e : (List.range irr.length).map (idx x) = x := by
      apply List.ext_getElem (by simp [hl])
      intro i h1 h3
      rw [List.getElem_map, List.getElem_range, idx, List.getD_eq_getElem _ _ h3]
    simp only [e] at h2
    have h3 : permute x q.2 = (List.range irr.length).map fun i => idx x (q.2.getD i i) := by
      conv_lhs => rw [← e]
      exact permute_map_range (hG.perm q hq) _
    rw [h3, h2, ← mul_assoc, cast_sq hG hq, one_mul]

theorem idx_map_self {n : ℕ} {x : List ℕ} (hl : x.length = n) : (List.range n).map (idx x) = x := by
  apply List.ext_getElem (by simp [hl])
  intro i h1 h3
  rw [List.getElem_map, List.getElem_range, idx, List.getD_eq_getElem _ _ h3]

/-- The formula, for any algorithm that returns an orthonormal basis. -/
theorem formula_aux {eigh : Eigh} {eps : ℝ} {opt : Optimized} {flag : Bool} (order : Finset SPerm → List SPerm) (ho : ∀ G q, q ∈ order G ↔ q ∈ G)
    (names : List Char) (rest : List Part) (hne : names ≠ []) (hc : Clean ((false, names) :: rest)) (hw : WellFormed names rest)
    (hm : names.length ≠ 1 ∨ ∀ q ∈ rest, q.1 = false)
    (kw : Dict) (hk : (kw.map Prod.fst).Nodup) (hin : ∀ q ∈ kw, ∃ c ∈ names, q.1 = [c]) (a : Char → Irreps) (ha : Admissible names rest kw a)
    (hu : ∀ a', Admissible names rest kw a' → ∀ c ∈ names, a' c = a c) (hd : ∀ c ∈ names, (a c).dim ≠ 0)
    (fuel : ℕ) (hf : 2 * factorial names.length < fuel) 
    (hbas : ∀ G, IsSGroup (names.map a).length G → SameIrreps (names.map a) G → (∀ x ∈ names.map a, Irreps.dim x ≠ 0) → ((names.map a).length ≠ 1 ∨ (-1, [0]) ∉ G) → names.map a ≠ [] →
      ∃ B, basis eigh eps opt flag fuel (names.map a) G none = some (.ok B) ∧ OrthonormalBasis (names.map a) G B.array ∧ Equivariant (names.map a) B ∧ ∀ t ∈ B.array, IsArray (names.map a).length t) :
    ∃ B, formulaBasis eigh eps opt flag order fuel (text ((false, names) :: rest)) kw none = some (.ok B) ∧
      Equivariant (names.map a) B ∧
      (∀ i (hi : i < B.array.length) j (hj : j < B.array.length), inner (names.map a) B.array[i] B.array[j] = if i = j then 1 else 0) ∧
      (∀ t ∈ B.array, IndexSymmetry.Symmetric (fun c => (a c).dim) names rest fun x => t fun i => x.getD i 0) ∧
      (∀ T : List ℕ → ℝ, IndexSymmetry.Symmetric (fun c => (a c).dim) names rest T → ∀ x : List ℕ, List.Forall₂ (· < ·) x (names.map fun c => (a c).dim) →
        T x = (B.array.map fun t => innerList (names.map fun c => (a c).dim) t T * t fun i => x.getD i 0).sum) := by
  obtain ⟨G, g1, hG, hgen, hmin⟩ := germinate_ok hc hw hf
  obtain ⟨G', g1', hirr⟩ := C96_irreps names rest hc hw fuel hf kw hk
  rw [g1] at g1'
  obtain rfl : G = G' := by
    have := Except.ok.inj (Option.some.inj g1')
    exact (Prod.mk.inj this).2
  have hlen : ∀ q ∈ kw, q.1.length = 1 := by
    intro q hq
    obtain ⟨c, -, e⟩ := hin q hq
    rw [e]; rfl
  have hi : irrepsTuple names (order G) kw = .ok (names.map a) := by
    refine (((hirr (order G) (ho G)).2 hlen).1 _).mpr ⟨?_, ⟨a, ha⟩, fun a' ha' => List.map_congr_left (hu a' ha')⟩
    intro c v h
    obtain ⟨c', hc', e⟩ := hin _ h
    simp only [List.cons.injEq, and_true] at e
    exact e ▸ hc'
  have hdim : (names.map a).map Irreps.dim = names.map fun c => (a c).dim := by rw [List.map_map]; rfl
  have hlin := (admissible_linked a hw hG hgen hmin).mp ha.2
  have hG' : IsSGroup (names.map a).length G := by rw [List.length_map]; exact hG
  have hsame : SameIrreps (names.map a) G := by
    intro q hq i hi
    rw [List.length_map] at hi
    have hlt := getD_lt (hG.perm q hq) hi
    have := hlin q hq i hi
    rw [List.getD_eq_getElem _ _ hlt, List.getD_eq_getElem _ _ hi] at this
    have e : ∀ k (hk : k < names.length), (names.map a).getD k [] = a names[k] := by
      intro k hk
      rw [List.getD_eq_getElem _ _ (by simpa using hk), List.getElem_map]
    rw [e _ hlt, e _ hi]
    exact this
  have hd' : ∀ x ∈ names.map a, Irreps.dim x ≠ 0 := by
    intro x hx
    obtain ⟨c, hc, rfl⟩ := List.mem_map.mp hx
    exact hd c hc
  have hm' : (names.map a).length ≠ 1 ∨ (-1, [0]) ∉ G := by
    rw [List.length_map]
    rcases hm with h | h
    · exact Or.inl h
    · right
      have := hmin (fun q => q.1 = 1) ?_ (fun q _ h => h) (fun q r _ _ h1 h2 => by show q.1 * r.1 = 1; rw [h1, h2]; rfl)
      · intro h3
        have := this _ h3
        simp at this
      · intro q hq
        rcases List.mem_cons.mp hq with rfl | hq
        · rfl
        · simp [isign, h q hq]
  obtain ⟨B, hB, o, e, ar⟩ := hbas G hG' hsame hd' hm' (by simpa using hne)
  have hdd : ∀ q ∈ rest, q.2.map (fun c => (a c).dim) = names.map fun c => (a c).dim := by
    intro q hq
    have := congrArg (List.map Irreps.dim) (ha.2 q hq)
    rw [List.map_map, List.map_map] at this
    exact this
  have hsy : ∀ T, IndexSymmetry.Symmetric (fun c => (a c).dim) names rest T ↔ Symmetric (names.map a) G fun σ => T ((List.range (names.map a).length).map σ) := by
    intro T
    rw [symmetric_iff hw hdd hG hgen hmin T, ← sym_iff hG', hdim]
  refine ⟨B, ?_, e, o.orthonormal, ?_, ?_⟩
  · unfold formulaBasis
    rw [g1]
    simp only [hi]
    exact hB
  · intro t ht
    rw [hsy]
    intro q hq σ hσ
    have hcon : ∀ σ : ℕ → ℕ, (t fun i => ((List.range (names.map a).length).map σ).getD i 0) = t σ := by
      intro σ
      apply ar t ht
      intro i hi
      exact idx_map_range σ hi
    simp only [hcon]
    exact o.symmetric t ht q hq σ hσ
  · intro T hT x hx
    have hxl : x.length = (names.map a).length := by rw [List.length_map]; simpa using hx.length_eq
    have hxb : x ∈ fullBase ((names.map a).map Irreps.dim) := by rw [hdim]; exact mem_fullBase.mpr hx
    have := o.complete (fun σ => T ((List.range (names.map a).length).map σ)) ?_ ((hsy T).mp hT) (idx x) (idx_inR hxb)
    · simp only [idx_map_self hxl] at this
      rw [this]
      congr 1
      apply List.map_congr_left
      intro t _
      congr 1
      unfold inner innerList
      rw [hdim]
      congr 1
      apply List.map_congr_left
      intro y hy
      have hl := len_of_mem (n := names.length) (by simp) hy
      have e2 := idx_map_self (n := (names.map a).length) (x := y) (by rw [List.length_map]; exact hl)
      unfold idx at e2
      simp only [e2]
    · intro σ τ h
      simp only
      congr 1
      apply List.map_congr_left
      intro i hi
      exact h i (List.mem_range.mp hi)

/-- **C96 (formula).** A formula `names = ± w = ...` and keyword arguments that determine the irreps `a c` of every letter `c`: whatever
the order in which the set of symmetries is iterated, `reduced_tensor_product_basis` (general algorithm, without `keep_ir`) returns an `IrrepsArray` whose
columns are orthonormal tensors with `T[names] = ± T[w]` for each part of the formula, in which every such tensor can be expanded, and which transform as the irreps say. -/
theorem C96_formula {eigh : Eigh} (hE : EighOk eigh) {eps : ℝ} (h0 : 0 < eps) (h1 : eps ≤ 1) (opt : Optimized) (order : Finset SPerm → List SPerm) (ho : ∀ G q, q ∈ order G ↔ q ∈ G)
    (names : List Char) (rest : List Part) (hne : names ≠ []) (hc : Clean ((false, names) :: rest)) (hw : WellFormed names rest)
    (hm : names.length ≠ 1 ∨ ∀ q ∈ rest, q.1 = false)
    (kw : Dict) (hk : (kw.map Prod.fst).Nodup) (hin : ∀ q ∈ kw, ∃ c ∈ names, q.1 = [c]) (a : Char → Irreps) (ha : Admissible names rest kw a)
    (hu : ∀ a', Admissible names rest kw a' → ∀ c ∈ names, a' c = a c) (hd : ∀ c ∈ names, (a c).dim ≠ 0)
    (hs : 4 * ((names.map fun c => (a c).dim).prod : ℝ) * eps ^ 2 < 1) (fuel : ℕ) (hf : 2 * factorial names.length < fuel) (hf2 : (names.length - 1) ^ 2 + names.length ≤ fuel) :
    ∃ B, formulaBasis eigh eps opt false order fuel (text ((false, names) :: rest)) kw none = some (.ok B) ∧
      Equivariant (names.map a) B ∧
      (∀ i (hi : i < B.array.length) j (hj : j < B.array.length), inner (names.map a) B.array[i] B.array[j] = if i = j then 1 else 0) ∧
      (∀ t ∈ B.array, IndexSymmetry.Symmetric (fun c => (a c).dim) names rest fun x => t fun i => x.getD i 0) ∧
      (∀ T : List ℕ → ℝ, IndexSymmetry.Symmetric (fun c => (a c).dim) names rest T → ∀ x : List ℕ, List.Forall₂ (· < ·) x (names.map fun c => (a c).dim) →
        T x = (B.array.map fun t => innerList (names.map fun c => (a c).dim) t T * t fun i => x.getD i 0).sum) := by
  refine formula_aux order ho names rest hne hc hw hm kw hk hin a ha hu hd fuel hf fun G hG hI hd' hm' hne' => ?_
  have hdim : (names.map a).map Irreps.dim = names.map fun c => (a c).dim := by rw [List.map_map]; rfl
  obtain ⟨B, hB, -, -⟩ := C95_total hE h0 h1 opt (names.map a) G hne' hG hI hd' (by rw [hdim]; exact hs) hm' (fuel := fuel) (by rw [List.length_map]; exact hf2)
  exact ⟨B, hB, C95_basis hE h0 h1 opt fuel (names.map a) G B hG hI hd' (by rw [hdim]; exact hs) hm' hB⟩

theorem identity_group (n : ℕ) : IsSGroup n {((1, List.range n) : SPerm)} := by
  have e : identity n = List.range n := rfl
  refine ⟨?_, ?_, ?_, ?_, ?_⟩
  · intro q hq; rw [Finset.mem_singleton] at hq; subst hq; exact Or.inl rfl
  · intro q hq; rw [Finset.mem_singleton] at hq; subst hq; exact List.Perm.refl _
  · rw [e]; exact Finset.mem_singleton_self _
  · intro q hq; rw [Finset.mem_singleton] at hq ⊢; subst hq
    simp only
    have := inv_comp (id_perm n)
    rw [comp_id (inv_perm (id_perm n)), e] at this
    rw [this]
  · intro q hq r hr
    rw [Finset.mem_singleton] at hq hr ⊢; subst hq; subst hr
    simp only [mul_one]
    rw [← e, comp_id (id_perm n)]

/-- **C96 (list).** Without symmetries: an orthonormal basis of all arrays of shape `(d1, ..., dn)`. -/
theorem C96_list {eigh : Eigh} (hE : EighOk eigh) {eps : ℝ} (h0 : 0 < eps) (h1 : eps ≤ 1) (opt : Optimized) (irr : List Irreps) (hne : irr ≠ []) (hd : ∀ x ∈ irr, Irreps.dim x ≠ 0)
    (hs : 4 * ((irr.map Irreps.dim).prod : ℝ) * eps ^ 2 < 1) {fuel : ℕ} (hf : (irr.length - 1) ^ 2 + irr.length ≤ fuel) :
    ∃ B, listBasis eigh eps opt false fuel irr none = some (.ok B) ∧ Equivariant irr B ∧
      (∀ i (hi : i < B.array.length) j (hj : j < B.array.length), inner irr B.array[i] B.array[j] = if i = j then 1 else 0) ∧
      ∀ T : Ten, IsArray irr.length T → SameEntries irr T fun σ => (B.array.map fun t => inner irr t T * t σ).sum := by
  have hG := identity_group irr.length
  have hI : SameIrreps irr {((1, List.range irr.length) : SPerm)} := by
    intro q hq i hi
    rw [Finset.mem_singleton] at hq; subst hq
    simp only
    rw [List.getD_eq_getElem (List.range irr.length) 0 (by simpa using hi), List.getElem_range]
  obtain ⟨B, hB, o, e⟩ := C95_total hE h0 h1 opt irr _ hne hG hI hd hs (Or.inr (by simp)) hf
  refine ⟨B, hB, e, o.orthonormal, fun T hT => o.complete T hT ?_⟩
  intro q hq σ hσ
  rw [Finset.mem_singleton] at hq; subst hq
  simp only [Int.cast_one, one_mul]
  apply hT
  intro i hi
  rw [List.getD_eq_getElem (List.range irr.length) i (by simpa using hi), List.getElem_range]

/-- `symmetric`, `antisymmetric`: the irreps of the indices are all the same. -/
theorem same_replicate {G : Finset SPerm} {n : ℕ} (hG : IsSGroup n G) (irreps : Irreps) : SameIrreps (List.replicate n irreps) G := by
  intro q hq i hi
  rw [List.length_replicate] at hi
  rw [List.getD_replicate _ (getD_lt (hG.perm q hq) hi), List.getD_replicate _ hi]

/-- **C96 (symmetric).** `reduced_symmetric_tensor_product_basis` (general algorithm): an orthonormal basis of the arrays that no exchange of
indices changes. -/
theorem C96_symmetric {eigh : Eigh} (hE : EighOk eigh) {eps : ℝ} (h0 : 0 < eps) (h1 : eps ≤ 1) (opt : Optimized) (irreps : Irreps) (n : ℕ) (hn : n ≠ 0) (hd : irreps.dim ≠ 0)
    (hs : 4 * ((irreps.dim : ℝ) ^ n) * eps ^ 2 < 1) {fuel : ℕ} (hf : (n - 1) ^ 2 + n ≤ fuel) :
    ∃ B, symmetricBasis eigh eps opt false fuel irreps n none = some (.ok B) ∧ Equivariant (List.replicate n irreps) B ∧
      OrthonormalBasis (List.replicate n irreps) (symmetricPermRepr n) B.array := by
  have hG : IsSGroup (List.replicate n irreps).length (symmetricPermRepr n) := by rw [List.length_replicate]; exact symmetric_group
  obtain ⟨B, hB, o, e⟩ := C95_total hE h0 h1 opt (List.replicate n irreps) _ (by simpa using hn) hG (same_replicate symmetric_group irreps)
    (fun x hx => by rw [List.eq_of_mem_replicate hx]; exact hd) (by rw [List.map_replicate, List.prod_replicate]; push_cast; exact hs)
    (Or.inr (by rw [mem_symmetricPermRepr]; simp)) (fuel := fuel) (by rw [List.length_replicate]; exact hf)
  exact ⟨B, hB, e, o⟩

/-- **C96 (antisymmetric).** `reduced_antisymmetric_tensor_product_basis`: an orthonormal basis of the arrays that change sign with every exchange of two indices. -/
theorem C96_antisymmetric {eigh : Eigh} (hE : EighOk eigh) {eps : ℝ} (h0 : 0 < eps) (h1 : eps ≤ 1) (opt : Optimized) (irreps : Irreps) (n : ℕ) (hn : n ≠ 0) (hd : irreps.dim ≠ 0)
    (hs : 4 * ((irreps.dim : ℝ) ^ n) * eps ^ 2 < 1) {fuel : ℕ} (hf : (n - 1) ^ 2 + n ≤ fuel) :
    ∃ B, antisymmetricBasis eigh eps opt false fuel irreps n none = some (.ok B) ∧ Equivariant (List.replicate n irreps) B ∧
      OrthonormalBasis (List.replicate n irreps) (antisymmetricPermRepr n) B.array := by
  have hG : IsSGroup (List.replicate n irreps).length (antisymmetricPermRepr n) := by rw [List.length_replicate]; exact antisymmetric_group
  have hm : (List.replicate n irreps).length ≠ 1 ∨ (-1, [0]) ∉ antisymmetricPermRepr n := by
    rw [List.length_replicate]
    by_cases h : n = 1
    · right; subst h; rw [mem_antisymmetricPermRepr]; rintro ⟨h, -⟩; revert h; decide
    · exact Or.inl h
  obtain ⟨B, hB, o, e⟩ := C95_total hE h0 h1 opt (List.replicate n irreps) _ (by simpa using hn) hG (same_replicate antisymmetric_group irreps)
    (fun x hx => by rw [List.eq_of_mem_replicate hx]; exact hd) (by rw [List.map_replicate, List.prod_replicate]; push_cast; exact hs)
    hm (fuel := fuel) (by rw [List.length_replicate]; exact hf)
  exact ⟨B, hB, e, o⟩

/-- `ijk=jik`, `i="1o"`, `k="2e"`: the irreps of `j` follow. -/
example : Admissible ['i', 'j', 'k'] [(false, ['j', 'i', 'k'])] [(['i'], [⟨1, ⟨1, .o⟩⟩]), (['k'], [⟨1, ⟨2, .e⟩⟩])]
      (fun c => if c = 'k' then [⟨1, ⟨2, .e⟩⟩] else [⟨1, ⟨1, .o⟩⟩]) ∧
    ∀ a, Admissible ['i', 'j', 'k'] [(false, ['j', 'i', 'k'])] [(['i'], [⟨1, ⟨1, .o⟩⟩]), (['k'], [⟨1, ⟨2, .e⟩⟩])] a →
      ∀ c ∈ ['i', 'j', 'k'], a c = if c = 'k' then [⟨1, ⟨2, .e⟩⟩] else [⟨1, ⟨1, .o⟩⟩] := by
  constructor
  · refine ⟨?_, ?_⟩
    · intro c v h
      simp only [List.mem_cons, Prod.mk.injEq, List.cons.injEq, and_true, List.not_mem_nil, or_false] at h
      rcases h with ⟨rfl, rfl⟩ | ⟨rfl, rfl⟩ <;> rfl
    · intro q hq
      rw [List.mem_singleton] at hq; subst hq; rfl
  · intro a ha c hc
    have h1 := ha.1 'i' [⟨1, ⟨1, .o⟩⟩] (by simp)
    have h2 := ha.1 'k' [⟨1, ⟨2, .e⟩⟩] (by simp)
    have h3 := ha.2 _ (List.mem_singleton_self _)
    simp only [List.map_cons, List.map_nil, List.cons.injEq, and_true] at h3
    simp only [List.mem_cons, List.not_mem_nil, or_false] at hc
    rcases hc with rfl | rfl | rfl
    · rw [h1]; rfl
    · rw [h3.1, h1]; rfl
    · rw [h2]; rfl

end E3nn.RTP

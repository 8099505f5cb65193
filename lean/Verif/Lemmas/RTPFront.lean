import Verif.Model.ReducedFront

/-! # The dictionary of the irreps of the indices -/

namespace E3nn.RTP

open E3nn.PermRepr

theorem Dict.get_isSome_iff (d : Dict) (k : List Char) : (Dict.get d k).isSome ↔ ∃ q ∈ d, q.1 = k := by
  unfold Dict.get
  rw [Option.isSome_map, List.find?_isSome]
  simp

theorem Dict.get_map {d : Dict} {k : List Char} {v : Irreps} (k' : List Char) (h : (Dict.get d k).isSome) :
    Dict.get (List.map (fun q => if q.1 == k then (k, v) else q) d) k' = if k' = k then some v else Dict.get d k' := by
  induction d with
  | nil => simp [Dict.get] at h
  | cons q d ih =>
    unfold Dict.get at h ih ⊢
    rw [List.map_cons, List.find?_cons, List.find?_cons]
    rw [List.find?_cons] at h
    by_cases hq : q.1 = k
    · simp only [hq, beq_self_eq_true, if_true]
      by_cases hk : k' = k
      · subst hk; simp
      · have hk' : (k == k') = false := by simpa using fun e => hk e.symm
        simp only [hk', if_neg hk]
        clear ih h
        induction d with
        | nil => rfl
        | cons q' d ih' =>
          rw [List.map_cons, List.find?_cons, List.find?_cons]
          by_cases hq' : q'.1 = k
          · simp only [hq', beq_self_eq_true, if_true, hk']
            exact ih'
          · have : (q'.1 == k) = false := by simpa using hq'
            simp only [this, Bool.false_eq_true, if_false]
            by_cases hz : q'.1 = k'
            · simp [hz]
            · have hz' : (q'.1 == k') = false := by simpa using hz
              simp only [hz']
              exact ih'
    · have hq1 : (q.1 == k) = false := by simpa using hq
      rw [hq1] at h
      simp only at h
      simp only [hq1]
      by_cases hk : q.1 = k'
      · have hk2 : k' ≠ k := fun e => hq (hk.trans e)
        simp [hk, hk2]
      · have : (q.1 == k') = false := by simpa using hk
        simp only [Bool.false_eq_true, if_false, this]
        exact ih h

theorem Dict.get_set (d : Dict) (k : List Char) (v : Irreps) (k' : List Char) : Dict.get (Dict.set d k v) k' = if k' = k then some v else Dict.get d k' := by
  unfold Dict.set
  split
  · rename_i h; exact Dict.get_map k' h
  · rename_i h
    unfold Dict.get at h ⊢
    rw [List.find?_append]
    by_cases hk : k' = k
    · subst hk
      rw [Option.isSome_map, Bool.not_eq_true, Option.isSome_eq_false_iff, Option.isNone_iff_eq_none] at h
      rw [h, if_pos rfl]; simp
    · rw [if_neg hk]
      have : ((k == k') : Bool) = false := by simpa using fun e => hk e.symm
      simp [this]

/-- One step. -/
theorem unify_spec (d : Dict) (i j : Char) :
    (∃ a b, Dict.get d [i] = some a ∧ Dict.get d [j] = some b ∧ a ≠ b ∧ unify d i j = .error .runtimeError) ∨
    (∃ d', unify d i j = .ok d' ∧ (∀ a b, Dict.get d [i] = some a → Dict.get d [j] = some b → a = b) ∧
      ∀ k, Dict.get d' k = if k = [i] ∨ k = [j] then (Dict.get d [i]).or (Dict.get d [j]) else Dict.get d k) := by
  unfold unify
  rcases hi : Dict.get d [i] with _ | a <;> rcases hj : Dict.get d [j] with _ | b
  · right
    refine ⟨d, by simp [hj], by simp, fun k => ?_⟩
    split
    · rename_i h
      rcases h with rfl | rfl <;> simp [hi, hj]
    · rfl
  · right
    refine ⟨Dict.set d [i] b, by simp [hj], by simp, fun k => ?_⟩
    rw [Dict.get_set]
    by_cases h1 : k = [i]
    · simp [h1]
    · rw [if_neg h1]
      by_cases h2 : k = [j]
      · simp [h2, hj]
      · simp [h1, h2]
  · right
    refine ⟨Dict.set (Dict.set d [j] a) [i] a, by simp [Dict.get_set], by simp, fun k => ?_⟩
    rw [Dict.get_set, Dict.get_set]
    by_cases h1 : k = [i]
    · simp [h1]
    · by_cases h2 : k = [j]
      · simp [h2]
      · simp [h1, h2]
  · by_cases hab : a = b
    · right
      subst hab
      refine ⟨Dict.set (Dict.set d [j] a) [i] a, by simp [Dict.get_set], by simp, fun k => ?_⟩
      rw [Dict.get_set, Dict.get_set]
      by_cases h1 : k = [i]
      · simp [h1]
      · by_cases h2 : k = [j]
        · simp [h2]
        · simp [h1, h2]
    · left
      exact ⟨a, b, rfl, rfl, hab, by simp [hab]⟩

/-- The loops as one loop over pairs. -/
theorem unifyAll_eq (f0 : List Char) (order : List SPerm) (d : Dict) :
    unifyAll f0 order d = (order.flatMap fun q => f0.zip (q.2.map fun i => f0.getD i ' ')).foldlM (fun d ij => unify d ij.1 ij.2) d := by
  unfold unifyAll
  induction order generalizing d with
  | nil => rfl
  | cons q order ih =>
    rw [List.foldlM_cons, List.flatMap_cons, List.foldlM_append]
    congr 1
    funext d
    exact ih d

/-- What the loop does, for an equivalence relation `S` of which the pairs are instances. -/
theorem loop_spec {S : Char → Char → Prop} (hS : Equivalence S) (kw : Dict) : ∀ (L : List (Char × Char)) (d : Dict), (∀ ij ∈ L, S ij.1 ij.2) →
    (∀ c v, Dict.get d [c] = some v → ∃ c0, S c0 c ∧ Dict.get kw [c0] = some v) → (∀ k v, Dict.get kw k = some v → Dict.get d k = some v) →
    (L.foldlM (fun d ij => unify d ij.1 ij.2) d = .error .runtimeError ∧ ∃ c c' v v', S c c' ∧ Dict.get kw [c] = some v ∧ Dict.get kw [c'] = some v' ∧ v ≠ v') ∨
    (∃ d', L.foldlM (fun d ij => unify d ij.1 ij.2) d = .ok d' ∧ (∀ c v, Dict.get d' [c] = some v → ∃ c0, S c0 c ∧ Dict.get kw [c0] = some v) ∧
      (∀ k v, Dict.get kw k = some v → Dict.get d' k = some v) ∧
      (∀ k v, Dict.get d k = some v → Dict.get d' k = some v) ∧
      (∀ ij ∈ L, ∀ v, Dict.get kw [ij.1] = some v → Dict.get d' [ij.2] = some v) ∧
      (∀ k, Dict.get d' k ≠ none → Dict.get d k ≠ none ∨ ∃ ij ∈ L, k = [ij.1] ∨ k = [ij.2])) := by
  intro L
  induction L with
  | nil => intro d _ h1 h2; right; exact ⟨d, rfl, h1, h2, fun _ _ h => h, by simp, fun k h => Or.inl h⟩
  | cons ij L ih =>
    intro d hL h1 h2
    rw [List.foldlM_cons]
    rcases unify_spec d ij.1 ij.2 with ⟨a, b, ha, hb, hab, he⟩ | ⟨d1, hd1, hc, hg⟩
    · left
      rw [he]
      obtain ⟨c, s1, k1⟩ := h1 _ _ ha
      obtain ⟨c', s2, k2⟩ := h1 _ _ hb
      exact ⟨rfl, c, c', a, b, hS.trans s1 (hS.trans (hL ij (by simp)) (hS.symm s2)), k1, k2, hab⟩
    · have hmono : ∀ k v, Dict.get d k = some v → Dict.get d1 k = some v := by
        intro k v hk
        rw [hg]
        split
        · rename_i h
          rcases h with rfl | rfl
          · rw [hk]; rfl
          · rcases hi : Dict.get d [ij.1] with _ | a
            · simpa using hk
            · rw [hc a v hi hk]; rfl
        · exact hk
      rw [hd1]
      have hs : S ij.1 ij.2 := hL ij (by simp)
      have h1' : ∀ c v, Dict.get d1 [c] = some v → ∃ c0, S c0 c ∧ Dict.get kw [c0] = some v := by
        intro c v h
        rw [hg] at h
        split at h
        · rename_i hcc
          rcases hi : Dict.get d [ij.1] with _ | a
          · rw [hi, Option.none_or] at h
            obtain ⟨c0, s0, k0⟩ := h1 _ _ h
            refine ⟨c0, ?_, k0⟩
            rcases hcc with e | e
            · simp only [List.cons.injEq, and_true] at e; subst e; exact hS.trans s0 (hS.symm hs)
            · simp only [List.cons.injEq, and_true] at e; subst e; exact s0
          · rw [hi, Option.some_or, Option.some.injEq] at h
            subst h
            obtain ⟨c0, s0, k0⟩ := h1 _ _ hi
            refine ⟨c0, ?_, k0⟩
            rcases hcc with e | e
            · simp only [List.cons.injEq, and_true] at e; subst e; exact s0
            · simp only [List.cons.injEq, and_true] at e; subst e; exact hS.trans s0 hs
        · exact h1 c v h
      rcases ih d1 (fun x hx => hL x (by simp [hx])) h1' (fun k v h => hmono k v (h2 k v h)) with h | ⟨d', e, g1, g2, g3, g4, g5⟩
      · left; exact h
      · right
        refine ⟨d', e, g1, g2, fun k v h => g3 k v (hmono k v h), ?_, ?_⟩
        · intro x hx v hv
          rcases List.mem_cons.mp hx with rfl | hx
          · apply g3
            rw [hg, if_pos (Or.inr rfl), h2 _ _ hv]; rfl
          · exact g4 x hx v hv
        · intro k hk
          rcases g5 k hk with h | ⟨x, hx, h⟩
          · rw [hg] at h
            by_cases hcc : k = [ij.1] ∨ k = [ij.2]
            · exact Or.inr ⟨ij, by simp, hcc⟩
            · rw [if_neg hcc] at h; exact Or.inl h
          · exact Or.inr ⟨x, by simp [hx], h⟩

end E3nn.RTP

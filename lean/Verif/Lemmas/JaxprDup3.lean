import Verif.Lemmas.JaxprDup2

/-! All rounds, and all nesting depths. -/

namespace E3nn.JX

variable {L P C J V : Type}

theorem split_getElem {α : Type} (l : List α) {i k : ℕ} (hki : k < i) (hi : i < l.length) : ∃ A B D, l = (A ++ (l[k]'(by omega)) :: B) ++ l[i] :: D ∧ (A ++ (l[k]'(by omega)) :: B).length = i ∧ (A ++ (l[k]'(by omega)) :: B) = l.take i := by
  have hk : k < l.length := by omega
  refine ⟨(l.take i).take k, (l.take i).drop (k + 1), l.drop (i + 1), ?_, ?_, ?_⟩
  all_goals
    have e : (l.take i).take k ++ l[k] :: (l.take i).drop (k + 1) = l.take i := by
      have hk' : k < (l.take i).length := by rw [List.length_take]; omega
      have : l[k] = (l.take i)[k] := by rw [List.getElem_take]
      rw [this, List.getElem_cons_drop, List.take_append_drop]
  · rw [e, List.getElem_cons_drop, List.take_append_drop]
  · rw [e, List.length_take]; omega
  · exact e

theorem rdeLoop_spec (S : Sem L P C V) (run : J → List V → List V → List V) (K : Keys L P C J) (fuel skip : ℕ) (j : Jaxpr L P C J) (hj : SSA j) (ht : Typed S run j.eqns) (hK : KeySound S run K j.eqns) :
    SSA (rdeLoop K fuel skip j) ∧ (rdeLoop K fuel skip j).constvars = j.constvars ∧ (rdeLoop K fuel skip j).invars = j.invars ∧ (rdeLoop K fuel skip j).outs.length = j.outs.length ∧
      (∀ e' ∈ (rdeLoop K fuel skip j).eqns, ∃ e ∈ j.eqns, ∃ σ, e' = substE σ e) ∧ (rdeLoop K fuel skip j).eqns.length ≤ j.eqns.length ∧
      (∀ cs args, Jaxpr.evalWith S run (rdeLoop K fuel skip j) cs args = Jaxpr.evalWith S run j cs args) ∧
      (j.eqns.length ≤ fuel → (j.eqns.take skip).Pairwise (fun b a => K.eqnEq a b = false) → (rdeLoop K fuel skip j).eqns.Pairwise fun b a => K.eqnEq a b = false) := by
  induction fuel generalizing skip j with
  | zero =>
    refine ⟨hj, rfl, rfl, rfl, fun e he => ⟨e, he, id, (substE_id e).symm⟩, le_refl _, fun _ _ => rfl, fun h _ => ?_⟩
    have : j.eqns = [] := List.length_eq_zero_iff.mp (by omega)
    rw [show rdeLoop K 0 skip j = j from rfl, this]
    exact List.Pairwise.nil
  | succ fuel ih =>
    have e0 : rdeLoop K (fuel + 1) skip j = match findPair K.eqnEq j.eqns skip with
      | none => j
      | some (i, k) => match j.eqns[i]?, j.eqns[k]? with
        | some e1, some e2 => rdeLoop K fuel (i - 1) (rdeStep j i e1 e2)
        | _, _ => j := rfl
    cases hf : findPair K.eqnEq j.eqns skip with
    | none =>
      have e : rdeLoop K (fuel + 1) skip j = j := by rw [e0, hf]
      rw [e]
      refine ⟨hj, rfl, rfl, rfl, fun e he => ⟨e, he, id, (substE_id e).symm⟩, le_refl _, fun _ _ => rfl, fun _ h => ?_⟩
      rw [List.pairwise_iff_getElem]
      intro k i hk hi hki
      by_cases hs : skip ≤ i
      · exact findPair_none hf i k hi hki hs
      · rw [List.pairwise_iff_getElem] at h
        have := h k i (by rw [List.length_take]; omega) (by rw [List.length_take]; omega) hki
        rwa [List.getElem_take, List.getElem_take] at this
    | some q =>
      obtain ⟨i, k⟩ := q
      obtain ⟨hki, hsi, hi, hk, hdup⟩ := findPair_some hf
      have e : rdeLoop K (fuel + 1) skip j = rdeLoop K fuel (i - 1) (rdeStep j i j.eqns[i] j.eqns[k]) := by
        rw [e0, hf]
        simp only [List.getElem?_eq_getElem hi, List.getElem?_eq_getElem hk]
      obtain ⟨A, B, D, hsplit, hlen, htake⟩ := split_getElem j.eqns hki hi
      obtain ⟨σ, s1, s2, s3⟩ := rdeStep_spec S run hj ht hK hsplit hdup
      rw [hlen] at s1 s2 s3
      have hes : (rdeStep j i j.eqns[i] j.eqns[k]).eqns = (A ++ j.eqns[k] :: B) ++ D.map (substE σ) := by rw [s1]
      have hor : ∀ e' ∈ (rdeStep j i j.eqns[i] j.eqns[k]).eqns, ∃ e ∈ j.eqns, ∃ τ, e' = substE τ e := by
        intro e' he'
        rw [hes] at he'
        rcases List.mem_append.mp he' with h | h
        · exact ⟨e', by rw [hsplit]; exact List.mem_append_left _ h, id, (substE_id _).symm⟩
        · obtain ⟨f, hf', rfl⟩ := List.mem_map.mp h
          exact ⟨f, by rw [hsplit]; exact List.mem_append_right _ (by simp [hf']), σ, rfl⟩
      have hfix : (A ++ j.eqns[k] :: B) = (A ++ j.eqns[k] :: B).map (substE id) := by
        conv_lhs => rw [← List.map_id (A ++ j.eqns[k] :: B)]
        exact List.map_congr_left fun e _ => (substE_id e).symm
      have ht' : Typed S run (rdeStep j i j.eqns[i] j.eqns[k]).eqns := by
        intro e' he' args ha
        obtain ⟨e, he, τ, rfl⟩ := hor e' he'
        exact (ht.subst τ) _ (List.mem_map.mpr ⟨e, he, rfl⟩) args ha
      have hK' : KeySound S run K (rdeStep j i j.eqns[i] j.eqns[k]).eqns := by
        have hl : ∀ (τ : Var → Var) (e : Eqn L P C J) x, Atom.lit x ∈ (substE τ e).ins → Atom.lit x ∈ e.ins := by
          intro τ e x hx
          obtain ⟨a, ha, hax⟩ := List.mem_map.mp (show Atom.lit x ∈ e.ins.map (substA τ) from hx)
          cases a with
          | var v => cases hax
          | lit y => cases hax; exact ha
        constructor
        · intro e1 h1 e2 h2 x y hx hy
          obtain ⟨f1, g1, τ1, rfl⟩ := hor e1 h1
          obtain ⟨f2, g2, τ2, rfl⟩ := hor e2 h2
          exact hK.lits f1 g1 f2 g2 x y (hl _ _ _ hx) (hl _ _ _ hy)
        · intro e1 h1 e2 h2
          obtain ⟨f1, g1, τ1, rfl⟩ := hor e1 h1
          obtain ⟨f2, g2, τ2, rfl⟩ := hor e2 h2
          exact hK.params f1 g1 f2 g2
      have hlen' : (rdeStep j i j.eqns[i] j.eqns[k]).eqns.length + 1 = j.eqns.length := by
        have := congrArg List.length hsplit
        rw [hes]
        simp only [List.length_append, List.length_cons, List.length_map] at this ⊢
        omega
      obtain ⟨b1, b2, b3, b4, b5, b6, b7, b8⟩ := ih (i - 1) (rdeStep j i j.eqns[i] j.eqns[k]) s2 ht' hK'
      rw [e]
      refine ⟨b1, by rw [b2, s1], by rw [b3, s1], by rw [b4, s1]; simp, fun e' he' => ?_, by omega, fun cs args => by rw [b7, s3], fun hfu hp => b8 (by omega) ?_⟩
      · obtain ⟨f, hf', τ, rfl⟩ := b5 e' he'
        obtain ⟨g, hg, ρ, rfl⟩ := hor f hf'
        exact ⟨g, hg, τ ∘ ρ, substE_comp ρ τ g⟩
      · rw [hes, htake]
        have : ((j.eqns.take i ++ D.map (substE σ)).take (i - 1)) = j.eqns.take (i - 1) := by
          rw [List.take_append_of_le_length (by rw [List.length_take]; omega), List.take_take]
          congr 1
          omega
        rw [this, List.pairwise_iff_getElem]
        intro b a hb ha hba
        rw [List.length_take] at ha hb
        rw [List.getElem_take, List.getElem_take]
        by_cases hs : skip ≤ a
        · -- the search would have stopped earlier
          by_contra hc
          have hmin : ∀ (a : ℕ), a < i → skip ≤ a → ∀ b (hb : b < a) (hal : a < j.eqns.length), K.eqnEq j.eqns[a] (j.eqns[b]'(by omega)) = false := by
            clear ha hb hba hs hc this
            intro a hai hsa b hba hal
            unfold findPair at hf
            rw [List.findSome?_eq_some_iff] at hf
            obtain ⟨l1, x, l2, hl, hx, hnone⟩ := hf
            have hxi : x = i := by
              split at hx
              · cases hx
              · rw [Option.map_eq_some_iff] at hx
                obtain ⟨_, _, h⟩ := hx
                exact congrArg Prod.fst h
            subst hxi
            have hmem : a ∈ l1 := by
              have hl1 : l1.length = x := by
                have := congrArg (fun l => l[l1.length]?) hl
                simp only [List.getElem?_append_right (le_refl _), Nat.sub_self, List.getElem?_cons_zero] at this
                rw [List.getElem?_eq_some_iff] at this
                obtain ⟨h1, h2⟩ := this
                simpa using h2
              have := congrArg (fun l => l[a]?) hl
              simp only [List.getElem?_append_left (show a < l1.length by omega)] at this
              rw [List.getElem?_range (by omega)] at this
              exact List.mem_of_getElem? this.symm
            have := hnone a hmem
            rw [if_neg (by omega), Option.map_eq_none_iff, List.findIdx?_eq_none_iff] at this
            have := this (j.eqns[b]'(by omega)) (by
              rw [List.mem_take_iff_getElem]
              exact ⟨b, by omega, rfl⟩)
            rw [List.getElem?_eq_getElem hal] at this
            simpa using this
          exact hc (hmin a (by omega) hs b hba (by omega))
        · rw [List.pairwise_iff_getElem] at hp
          have := hp b a (by rw [List.length_take]; omega) (by rw [List.length_take]; omega) hba
          rwa [List.getElem_take, List.getElem_take] at this

/-! ### Rewriting the nested jaxprs -/

theorem results_mapSubs (S : Sem L P C V) (run : J → List V → List V → List V) (f : Sub C J → Sub C J) (e : Eqn L P C J) (h : ∀ s ∈ e.subs, Sub.eval S run (f s) = Sub.eval S run s) (args : List V) :
    Eqn.results S run { e with subs := e.subs.map f } args = e.results S run args := by
  obtain ⟨p, pr, subs, ins, outs⟩ := e
  simp only at h
  cases p with
  | xlaCall =>
    cases subs with
    | nil => rfl
    | cons s rest => exact congrFun (h s (by simp)) args
  | other n =>
    show S.prim n pr ((subs.map f).map (Sub.eval S run)) args = S.prim n pr (subs.map (Sub.eval S run)) args
    rw [List.map_map]
    congr 1
    exact List.map_congr_left fun s hs => h s hs

theorem evalWith_mapSubs (S : Sem L P C V) (run : J → List V → List V → List V) (f : Sub C J → Sub C J) (j : Jaxpr L P C J) (h : ∀ e ∈ j.eqns, ∀ s ∈ e.subs, Sub.eval S run (f s) = Sub.eval S run s) (cs args : List V) :
    Jaxpr.evalWith S run (mapSubs f j) cs args = Jaxpr.evalWith S run j cs args := by
  have key : ∀ (es : List (Eqn L P C J)) (env : Var → V), (∀ e ∈ es, ∀ s ∈ e.subs, Sub.eval S run (f s) = Sub.eval S run s) →
      (es.map fun e => { e with subs := e.subs.map f }).foldl (Eqn.eval S run) env = es.foldl (Eqn.eval S run) env := by
    intro es
    induction es with
    | nil => intro env _; rfl
    | cons e es ih =>
      intro env hes
      rw [List.map_cons, List.foldl_cons, List.foldl_cons]
      have : Eqn.eval S run env { e with subs := e.subs.map f } = Eqn.eval S run env e := by
        unfold Eqn.eval
        rw [results_mapSubs S run f e (hes e (by simp))]
      rw [this]
      exact ih _ (fun e' he' => hes e' (by simp [he']))
  unfold Jaxpr.evalWith mapSubs
  simp only
  rw [key _ _ h]

theorem ssa_mapSubs (f : Sub C J → Sub C J) {j : Jaxpr L P C J} (h : SSA j) : SSA (mapSubs f j) := by
  refine ⟨?_, ?_⟩
  · have : binders (mapSubs f j) = binders j := by
      unfold binders mapSubs
      simp only
      rw [List.flatMap_map]
    rw [this]
    exact h.once
  · have key : ∀ (es : List (Eqn L P C J)) (B : List Var), Scoped B es → Scoped B (es.map fun e => { e with subs := e.subs.map f }) := by
      intro es
      induction es with
      | nil => intro B _; trivial
      | cons e es ih =>
        intro B hs
        rw [List.map_cons]
        rw [scoped_cons] at hs ⊢
        exact ⟨hs.1, ih _ hs.2⟩
    exact key _ _ h.inScope

end E3nn.JX

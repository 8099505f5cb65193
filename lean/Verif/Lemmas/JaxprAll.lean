import Verif.Lemmas.JaxprDup3

/-! All nesting depths. -/

namespace E3nn.JX

variable {L P C J V : Type}

/-! ### One level -/

theorem rdc_spec (S : Sem L P C V) (run : J → List V → List V → List V) (ok : J → Prop) (nC nI nO : J → ℕ) (dup : C → C → Bool) (rdcJ : List C → J → List C × J)
    (hd : ∀ c c', dup c c' = true → S.const c = S.const c')
    (hJ : ∀ cs s, ok s → cs.length = nC s → ok (rdcJ cs s).2 ∧ (rdcJ cs s).1.length = nC (rdcJ cs s).2 ∧ ∀ args, run (rdcJ cs s).2 ((rdcJ cs s).1.map S.const) args = run s (cs.map S.const) args)
    (cs : List C) (j : Jaxpr L P C J) (hj : Ok S run ok nC nI nO j) (hl : cs.length = j.constvars.length) :
    Ok S run ok nC nI nO (rdc dup rdcJ cs j).2 ∧ (rdc dup rdcJ cs j).1.length = (rdc dup rdcJ cs j).2.constvars.length ∧ (rdc dup rdcJ cs j).2.invars = j.invars ∧ (rdc dup rdcJ cs j).2.outs.length = j.outs.length ∧
      (rdc dup rdcJ cs j).1.Sublist cs ∧ (rdc dup rdcJ cs j).1.Pairwise (fun c' c => dup c c' = false) ∧
      ∀ args, Jaxpr.evalWith S run (rdc dup rdcJ cs j).2 ((rdc dup rdcJ cs j).1.map S.const) args = Jaxpr.evalWith S run j (cs.map S.const) args := by
  obtain ⟨a1, a2, a3, a4, a5, ⟨σ, a6⟩, a7, a8⟩ := rdcLoop_spec S run dup cs.length cs j hj.ssa hl (fun c _ c' _ => hd c c')
  unfold rdc
  simp only
  generalize hr : rdcLoop dup cs.length cs j = r at *
  set f : Sub C J → Sub C J := rdcSub rdcJ with hf
  have hsub : ∀ e ∈ r.2.eqns, ∀ s ∈ e.subs, Sub.eval S run (f s) = Sub.eval S run s ∧ (f s).Ok ok nC := by
    intro e he s hs
    rw [a6] at he
    obtain ⟨e0, he0, rfl⟩ := List.mem_map.mp he
    have h0 := hj.subs e0 he0 s hs
    cases s with
    | opn s => exact ⟨rfl, h0⟩
    | closed c s =>
      obtain ⟨h1, h2, h3⟩ := hJ c s h0.1 h0.2
      refine ⟨?_, h1, h2⟩
      funext args
      exact h3 args
  refine ⟨⟨ssa_mapSubs f a1, ?_, ?_, ?_⟩, a2, a4, a5, a3, a8 (le_refl _), fun args => ?_⟩
  · intro e he args ha
    obtain ⟨e', he', rfl⟩ := List.mem_map.mp he
    rw [results_mapSubs S run f e' (fun s hs => (hsub e' he' s hs).1)]
    have ht := hj.typed.subst σ
    rw [← a6] at ht
    exact ht e' he' args ha
  · intro e he hp
    obtain ⟨e', he', rfl⟩ := List.mem_map.mp he
    rw [a6] at he'
    obtain ⟨e0, he0, rfl⟩ := List.mem_map.mp he'
    obtain ⟨s, hs, h1, h2⟩ := hj.calls e0 he0 hp
    refine ⟨s, ?_, ?_, ?_⟩
    · show List.map f e0.subs = _
      rw [hs]; rfl
    · show (e0.ins.map (substA σ)).length = _
      rw [List.length_map, h1]
    · show (e0.outs.map σ).length = _
      rw [List.length_map, h2]
  · intro e he s hs
    obtain ⟨e', he', rfl⟩ := List.mem_map.mp he
    obtain ⟨s', hs', rfl⟩ := List.mem_map.mp hs
    exact (hsub e' he' s' hs').2
  · rw [evalWith_mapSubs S run f r.2 (fun e he s hs => (hsub e he s hs).1), a7]

theorem rde_spec (S : Sem L P C V) (run : J → List V → List V → List V) (ok sound : J → Prop) (nC nI nO : J → ℕ) (K : Keys L P C J) (rdeJ : J → J)
    (hJ : ∀ s, ok s → sound s → ok (rdeJ s) ∧ nC (rdeJ s) = nC s ∧ nI (rdeJ s) = nI s ∧ nO (rdeJ s) = nO s ∧ ∀ cs args, run (rdeJ s) cs args = run s cs args)
    (j : Jaxpr L P C J) (hj : Ok S run ok nC nI nO j) (hK : KeySound S run K j.eqns) (hs : ∀ e ∈ j.eqns, ∀ s ∈ e.subs, sound s.jaxpr) :
    Ok S run ok nC nI nO (rde K rdeJ j) ∧ (rde K rdeJ j).constvars = j.constvars ∧ (rde K rdeJ j).invars = j.invars ∧ (rde K rdeJ j).outs.length = j.outs.length ∧
      ∀ cs args, Jaxpr.evalWith S run (rde K rdeJ j) cs args = Jaxpr.evalWith S run j cs args := by
  obtain ⟨a1, a2, a3, a4, a5, -, a7, -⟩ := rdeLoop_spec S run K j.eqns.length 0 j hj.ssa hj.typed hK
  unfold rde
  generalize hr : rdeLoop K j.eqns.length 0 j = r at *
  set f : Sub C J → Sub C J := rdeSub rdeJ with hf
  have hsub : ∀ e ∈ r.eqns, ∀ s ∈ e.subs, Sub.eval S run (f s) = Sub.eval S run s ∧ (f s).Ok ok nC := by
    intro e he s hs'
    obtain ⟨e0, he0, σ, rfl⟩ := a5 e he
    have h0 := hj.subs e0 he0 s hs'
    have h1 := hs e0 he0 s hs'
    cases s with
    | opn s =>
      obtain ⟨b1, b2, b3, b4, b5⟩ := hJ s h0 h1
      exact ⟨by funext args; exact b5 _ _, b1⟩
    | closed c s =>
      obtain ⟨b1, b2, b3, b4, b5⟩ := hJ s h0.1 h1
      exact ⟨by funext args; exact b5 _ _, b1, by rw [b2]; exact h0.2⟩
  refine ⟨⟨ssa_mapSubs f a1, ?_, ?_, ?_⟩, a2, a3, a4, fun cs args => ?_⟩
  · intro e he args ha
    obtain ⟨e', he', rfl⟩ := List.mem_map.mp he
    rw [results_mapSubs S run f e' (fun s hs => (hsub e' he' s hs).1)]
    obtain ⟨e0, he0, σ, rfl⟩ := a5 e' he'
    exact (hj.typed.subst σ) _ (List.mem_map.mpr ⟨e0, he0, rfl⟩) args ha
  · intro e he hp
    obtain ⟨e', he', rfl⟩ := List.mem_map.mp he
    obtain ⟨e0, he0, σ, rfl⟩ := a5 e' he'
    obtain ⟨s, hs', h1, h2⟩ := hj.calls e0 he0 hp
    have h0 := hj.subs e0 he0 (.opn s) (by rw [hs']; simp)
    obtain ⟨b1, b2, b3, b4, b5⟩ := hJ s h0 (hs e0 he0 (.opn s) (by rw [hs']; simp))
    refine ⟨rdeJ s, ?_, ?_, ?_⟩
    · show List.map f e0.subs = _
      rw [hs']; rfl
    · show (e0.ins.map (substA σ)).length = _
      rw [List.length_map, h1, b3]
    · show (e0.outs.map σ).length = _
      rw [List.length_map, h2, b4]
  · intro e he s hs'
    obtain ⟨e', he', rfl⟩ := List.mem_map.mp he
    obtain ⟨s', hs'', rfl⟩ := List.mem_map.mp hs'
    exact (hsub e' he' s' hs'').2
  · rw [evalWith_mapSubs S run f r (fun e he s hs => (hsub e he s hs).1), a7]

/-! ### Dead code -/

theorem dceEqns_scoped (donate : List ℕ → P → P) (dceJ : J → List ℕ → J × List ℕ) (es : List (Eqn L P C J)) (hc : ∀ e ∈ es, e.prim = .xlaCall → ∃ s, e.subs = [.opn s]) (N B B' : List Var)
    (hs : Scoped B es) (hB : ∀ v ∈ B, v ∈ (es.foldr (dceStep donate dceJ) (N, [])).1 → v ∈ B') : Scoped B' (es.foldr (dceStep donate dceJ) (N, [])).2 := by
  induction es generalizing B B' with
  | nil => trivial
  | cons e es ih =>
    rw [List.foldr_cons] at hB ⊢
    generalize es.foldr (dceStep donate dceJ) (N, []) = acc at *
    rw [scoped_cons] at hs
    have hc' := fun e' (he' : e' ∈ es) => hc e' (by simp [he'])
    unfold dceStep at hB ⊢
    by_cases hd : e.outs.all (fun v => !acc.1.contains v)
    · rw [if_pos hd] at hB ⊢
      refine ih hc' _ _ hs.2 fun v hv hva => ?_
      rcases List.mem_append.mp hv with hv | hv
      · exact hB v hv hva
      · have := List.all_eq_true.mp hd v hv
        simp [hva] at this
    · rw [if_neg hd] at hB ⊢
      rw [scoped_cons]
      have hsubset : (∀ v ∈ (dceEqn donate dceJ acc.1 e).ins.flatMap Atom.vars, v ∈ e.ins.flatMap Atom.vars) ∧ (∀ v ∈ e.outs, v ∈ acc.1 → v ∈ (dceEqn donate dceJ acc.1 e).outs) := by
        by_cases hp : e.prim = .xlaCall
        · obtain ⟨s, hs'⟩ := hc e (by simp) hp
          rw [dceEqn_call donate dceJ acc.1 hp hs']
          refine ⟨fun v hv => ?_, fun v hv hva => ?_⟩
          · obtain ⟨a, ha, hva⟩ := List.mem_flatMap.mp hv
            obtain ⟨q, hq, rfl⟩ := List.mem_map.mp ha
            have hq1 := List.mem_of_mem_filter hq
            exact List.mem_flatMap.mpr ⟨q.1, (List.mem_zipIdx' hq1).2 ▸ List.getElem_mem _, hva⟩
          · exact List.mem_filter.mpr ⟨hv, by simpa using hva⟩
        · rw [dceEqn_other donate dceJ acc.1 hp]
          exact ⟨fun _ h => h, fun _ h _ => h⟩
      refine ⟨fun v hv => hB v (hs.1 v (hsubset.1 v hv)) (List.mem_append_left _ hv), ih hc' _ _ hs.2 fun v hv hva => ?_⟩
      rcases List.mem_append.mp hv with hv | hv
      · exact List.mem_append_left _ (hB v hv (List.mem_append_right _ hva))
      · exact List.mem_append_right _ (hsubset.2 v hv hva)

/-- Where the remaining equations come from. -/
theorem dceEqns_mem (donate : List ℕ → P → P) (dceJ : J → List ℕ → J × List ℕ) (es : List (Eqn L P C J)) (N : List Var) :
    ∀ e' ∈ (es.foldr (dceStep donate dceJ) (N, [])).2, ∃ e ∈ es, ∃ needed, e' = dceEqn donate dceJ needed e := by
  induction es with
  | nil => intro e' he'; simp at he'
  | cons e es ih =>
    intro e' he'
    rw [List.foldr_cons] at he'
    unfold dceStep at he'
    split at he'
    · obtain ⟨f, hf, n, h⟩ := ih e' he'
      exact ⟨f, by simp [hf], n, h⟩
    · rcases List.mem_cons.mp he' with rfl | he'
      · exact ⟨e, by simp, _, rfl⟩
      · obtain ⟨f, hf, n, h⟩ := ih e' he'
        exact ⟨f, by simp [hf], n, h⟩

theorem dceEqn_outs_sublist (donate : List ℕ → P → P) (dceJ : J → List ℕ → J × List ℕ) (needed : List Var) (e : Eqn L P C J) : (dceEqn donate dceJ needed e).outs.Sublist e.outs := by
  unfold dceEqn
  split
  · exact List.filter_sublist
  · exact List.Sublist.refl _

theorem dceEqns_outs (donate : List ℕ → P → P) (dceJ : J → List ℕ → J × List ℕ) (es : List (Eqn L P C J)) (N : List Var) :
    ((es.foldr (dceStep donate dceJ) (N, [])).2.flatMap Eqn.outs).Sublist (es.flatMap Eqn.outs) := by
  induction es with
  | nil => exact List.Sublist.refl _
  | cons e es ih =>
    rw [List.foldr_cons, List.flatMap_cons]
    unfold dceStep
    split
    · exact ih.trans (List.sublist_append_right _ _)
    · rw [List.flatMap_cons]
      exact (dceEqn_outs_sublist donate dceJ _ e).append ih

/-- The needed variables are the ones read by the remaining equations and outputs. -/
theorem dceEqns_needed (donate : List ℕ → P → P) (dceJ : J → List ℕ → J × List ℕ) (es : List (Eqn L P C J)) (N : List Var) (v : Var) :
    v ∈ (es.foldr (dceStep donate dceJ) (N, [])).1 ↔ v ∈ N ∨ ∃ e ∈ (es.foldr (dceStep donate dceJ) (N, [])).2, v ∈ e.ins.flatMap Atom.vars := by
  induction es with
  | nil => simp
  | cons e es ih =>
    rw [List.foldr_cons]
    generalize es.foldr (dceStep donate dceJ) (N, []) = acc at *
    unfold dceStep
    split
    · exact ih
    · simp only [List.mem_append, List.mem_cons, exists_eq_or_imp]
      rw [ih]
      tauto

/-- Every remaining equation binds a variable that is read later, and every output of a remaining call is read later. -/
theorem dceEqns_live (donate : List ℕ → P → P) (dceJ : J → List ℕ → J × List ℕ) (es : List (Eqn L P C J)) (hc : ∀ e ∈ es, e.prim = .xlaCall → ∃ s, e.subs = [.opn s]) (N : List Var) (X D : List (Eqn L P C J)) (e' : Eqn L P C J)
    (h : (es.foldr (dceStep donate dceJ) (N, [])).2 = X ++ e' :: D) :
    (∃ v ∈ e'.outs, v ∈ N ∨ ∃ e ∈ D, v ∈ e.ins.flatMap Atom.vars) ∧ (e'.prim = .xlaCall → ∀ v ∈ e'.outs, v ∈ N ∨ ∃ e ∈ D, v ∈ e.ins.flatMap Atom.vars) := by
  induction es generalizing X with
  | nil => simp at h
  | cons e es ih =>
    rw [List.foldr_cons] at h
    have hn := dceEqns_needed donate dceJ es N
    have ih' := fun X => ih (fun e' he' => hc e' (by simp [he'])) X
    generalize es.foldr (dceStep donate dceJ) (N, []) = acc at *
    unfold dceStep at h
    split at h
    · exact ih' X h
    · rename_i hd
      cases X with
      | cons x X =>
        simp only [List.cons_append, List.cons.injEq] at h
        exact ih' X h.2
      | nil =>
        simp only [List.nil_append, List.cons.injEq] at h
        obtain ⟨rfl, hD⟩ := h
        subst hD
        have hex : ∃ v ∈ e.outs, v ∈ acc.1 := by
          by_contra hcon
          apply hd
          rw [List.all_eq_true]
          intro v hv
          have : v ∉ acc.1 := fun hm => hcon ⟨v, hv, hm⟩
          simpa using this
        by_cases hp : e.prim = .xlaCall
        · obtain ⟨s, hs'⟩ := hc e (by simp) hp
          rw [dceEqn_call donate dceJ acc.1 hp hs']
          obtain ⟨v, hv, hva⟩ := hex
          refine ⟨⟨v, List.mem_filter.mpr ⟨hv, by simpa using hva⟩, (hn v).mp hva⟩, fun _ w hw => ?_⟩
          have := (List.mem_filter.mp hw).2
          exact (hn w).mp (by simpa using this)
        · rw [dceEqn_other donate dceJ acc.1 hp]
          obtain ⟨v, hv, hva⟩ := hex
          exact ⟨⟨v, hv, (hn v).mp hva⟩, fun h => absurd h hp⟩

theorem filter_zipIdx_length {α : Type} (l : List α) (idx : List ℕ) (hidx : idx = (List.range l.length).filter fun i => idx.contains i) : ((l.zipIdx.filter fun ai => idx.contains ai.2).map Prod.fst).length = idx.length := by
  have := congrArg List.length (select_eq (V := ℕ) l idx hidx (fun _ => 0) 0)
  simpa using this

theorem dce_spec (S : Sem L P C V) (run : J → List V → List V → List V) (ok : J → Prop) (nC nI nO : J → ℕ) (donate : List ℕ → P → P) (dceJ : J → List ℕ → J × List ℕ)
    (hlen : ∀ s cs args, (run s cs args).length = nO s)
    (hJ : ∀ s oi, ok s → (∀ i ∈ oi, i < nO s) → ok (dceJ s oi).1 ∧ nC (dceJ s oi).1 = nC s ∧ nI (dceJ s oi).1 = (dceJ s oi).2.length ∧ nO (dceJ s oi).1 = oi.length ∧
      (dceJ s oi).2 = ((List.range (nI s)).filter fun i => (dceJ s oi).2.contains i) ∧
      ∀ cs args, args.length = nI s → run (dceJ s oi).1 cs ((dceJ s oi).2.map fun i => args.getD i S.dflt) = oi.map fun i => (run s cs args).getD i S.dflt)
    (j : Jaxpr L P C J) (oi : List ℕ) (hj : Ok S run ok nC nI nO j) (hoi : ∀ i ∈ oi, i < j.outs.length) :
    Ok S run ok nC nI nO (dce donate dceJ j oi).1 ∧ (dce donate dceJ j oi).1.constvars = j.constvars ∧ (dce donate dceJ j oi).1.invars.length = (dce donate dceJ j oi).2.length ∧
      (dce donate dceJ j oi).1.outs.length = oi.length ∧ (dce donate dceJ j oi).2 = ((List.range j.invars.length).filter fun i => (dce donate dceJ j oi).2.contains i) ∧
      ∀ cs args, args.length = j.invars.length → Jaxpr.evalWith S run (dce donate dceJ j oi).1 cs ((dce donate dceJ j oi).2.map fun i => args.getD i S.dflt) = oi.map fun i => (Jaxpr.evalWith S run j cs args).getD i S.dflt := by
  have hc : ∀ e ∈ j.eqns, e.prim = .xlaCall → ∃ s, e.subs = [.opn s] := fun e he hp => by
    obtain ⟨s, hs, _⟩ := hj.calls e he hp
    exact ⟨s, hs⟩
  have hil : ∀ (l : List Var) (p : Var → Bool), (l.filter p).length = ((l.zipIdx.filter fun vi => p vi.1).map Prod.snd).length := by
    intro l p
    have key : ∀ (l : List Var) (k : ℕ), (l.filter p).length = (((l.zipIdx k).filter fun vi => p vi.1).map Prod.snd).length := by
      intro l
      induction l with
      | nil => intro k; rfl
      | cons a l ih =>
        intro k
        have := ih (k + 1)
        rw [List.zipIdx_cons, List.filter_cons, List.filter_cons]
        simp only
        split
        · simpa using this
        · exact this
    exact key l 0
  have hzi : ∀ (outs needed : List Var), ∀ i ∈ ((outs.zipIdx.filter fun vi => needed.contains vi.1).map Prod.snd), i < outs.length := by
    intro outs needed i hi
    rw [zipIdx_filter_snd, List.mem_filter, List.mem_range'_1] at hi
    omega
  refine ⟨⟨⟨?_, ?_⟩, ?_, ?_, ?_⟩, rfl, ?_, ?_, dce_idx donate dceJ j oi, ?_⟩
  · refine hj.ssa.once.sublist ?_
    unfold binders dce
    simp only
    exact ((List.Sublist.refl _).append List.filter_sublist).append (dceEqns_outs donate dceJ j.eqns _)
  · refine dceEqns_scoped donate dceJ j.eqns hc _ _ _ hj.ssa.inScope fun v hv hva => ?_
    rcases List.mem_append.mp hv with hv | hv
    · exact List.mem_append_left _ hv
    · exact List.mem_append_right _ (List.mem_filter.mpr ⟨hv, by simpa using hva⟩)
  · intro e' he' args ha
    obtain ⟨e, he, needed, rfl⟩ := dceEqns_mem donate dceJ j.eqns _ e' he'
    by_cases hp : e.prim = .xlaCall
    · obtain ⟨s, hs, h1, h2⟩ := hj.calls e he hp
      rw [dceEqn_call donate dceJ needed hp hs] at ha ⊢
      have h0 : ok s := hj.subs e he (.opn s) (by rw [hs]; simp)
      obtain ⟨b1, b2, b3, b4, b5, b6⟩ := hJ s ((e.outs.zipIdx.filter fun vi => needed.contains vi.1).map Prod.snd) h0 (by rw [← h2]; exact hzi e.outs needed)
      show (run _ [] args).length = (e.outs.filter fun v => needed.contains v).length
      rw [hlen, b4]
      exact (hil e.outs (fun v => needed.contains v)).symm
    · rw [dceEqn_other donate dceJ needed hp] at ha ⊢
      exact hj.typed e he args ha
  · intro e' he' hp'
    obtain ⟨e, he, needed, rfl⟩ := dceEqns_mem donate dceJ j.eqns _ e' he'
    by_cases hp : e.prim = .xlaCall
    · obtain ⟨s, hs, h1, h2⟩ := hj.calls e he hp
      rw [dceEqn_call donate dceJ needed hp hs] at hp' ⊢
      have h0 : ok s := hj.subs e he (.opn s) (by rw [hs]; simp)
      obtain ⟨b1, b2, b3, b4, b5, b6⟩ := hJ s ((e.outs.zipIdx.filter fun vi => needed.contains vi.1).map Prod.snd) h0 (by rw [← h2]; exact hzi e.outs needed)
      refine ⟨_, rfl, ?_, ?_⟩
      · rw [b3]
        exact filter_zipIdx_length e.ins _ (by rw [h1]; exact b5)
      · rw [b4]
        exact hil e.outs (fun v => needed.contains v)
    · rw [dceEqn_other donate dceJ needed hp] at hp' ⊢
      exact absurd hp' hp
  · intro e' he' s' hs'
    obtain ⟨e, he, needed, rfl⟩ := dceEqns_mem donate dceJ j.eqns _ e' he'
    by_cases hp : e.prim = .xlaCall
    · obtain ⟨s, hs, h1, h2⟩ := hj.calls e he hp
      rw [dceEqn_call donate dceJ needed hp hs] at hs'
      have h0 : ok s := hj.subs e he (.opn s) (by rw [hs]; simp)
      obtain ⟨b1, b2, b3, b4, b5, b6⟩ := hJ s ((e.outs.zipIdx.filter fun vi => needed.contains vi.1).map Prod.snd) h0 (by rw [← h2]; exact hzi e.outs needed)
      simp only [List.mem_singleton] at hs'
      subst hs'
      exact b1
    · rw [dceEqn_other donate dceJ needed hp] at hs'
      exact hj.subs e he s' hs'
  · exact hil j.invars _
  · have := congrArg List.length (filterMap_outs (V := ℕ) j.outs oi hoi (fun _ => 0) 0)
    simpa [dce] using this
  · intro cs args ha
    -- `dce_same` asks for the specification of every called jaxpr; give it the good ones
    have hcall : ∀ e ∈ j.eqns, EqnOK (CallSpec S run dceJ nI nO) nI nO e := by
      intro e he hp
      obtain ⟨s, hs, h1, h2⟩ := hj.calls e he hp
      have h0 : ok s := hj.subs e he (.opn s) (by rw [hs]; simp)
      refine ⟨s, hs, ⟨hlen s, ?_, ?_⟩, h1, h2⟩
      · exact fun oi hoi => (hJ s oi h0 hoi).2.2.2.2.1
      · exact fun oi hoi => (hJ s oi h0 hoi).2.2.2.2.2
    exact dce_same S run donate dceJ nI nO j hcall oi hoi cs args ha

end E3nn.JX

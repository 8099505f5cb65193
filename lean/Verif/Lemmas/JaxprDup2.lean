import Verif.Lemmas.JaxprDup

/-! The loops that remove duplicates. -/

namespace E3nn.JX

variable {L P C J V : Type}

theorem substE_comp (σ τ : Var → Var) (e : Eqn L P C J) : substE τ (substE σ e) = substE (τ ∘ σ) e := by
  have h : ∀ a : Atom L, substA τ (substA σ a) = substA (τ ∘ σ) a := fun a => by cases a <;> rfl
  unfold substE
  simp [List.map_map, Function.comp_def, h]

theorem substE_id (e : Eqn L P C J) : substE id e = e := substE_fix (fun _ _ => rfl) (fun _ _ => rfl)

theorem map_eraseIdx' {α β : Type} (f : α → β) (l : List α) (k : ℕ) : (l.eraseIdx k).map f = (l.map f).eraseIdx k := by
  induction l generalizing k with
  | nil => rfl
  | cons a l ih =>
    cases k with
    | zero => rfl
    | succ k => simp [ih]

theorem rdcLoop_spec (S : Sem L P C V) (run : J → List V → List V → List V) (dup : C → C → Bool) (fuel : ℕ) (cs : List C) (j : Jaxpr L P C J) (hj : SSA j) (hl : cs.length = j.constvars.length)
    (hd : ∀ c ∈ cs, ∀ c' ∈ cs, dup c c' = true → S.const c = S.const c') :
    SSA (rdcLoop dup fuel cs j).2 ∧ (rdcLoop dup fuel cs j).1.length = (rdcLoop dup fuel cs j).2.constvars.length ∧ (rdcLoop dup fuel cs j).1.Sublist cs ∧
      (rdcLoop dup fuel cs j).2.invars = j.invars ∧ (rdcLoop dup fuel cs j).2.outs.length = j.outs.length ∧
      (∃ σ, (rdcLoop dup fuel cs j).2.eqns = j.eqns.map (substE σ)) ∧
      (∀ args, Jaxpr.evalWith S run (rdcLoop dup fuel cs j).2 ((rdcLoop dup fuel cs j).1.map S.const) args = Jaxpr.evalWith S run j (cs.map S.const) args) ∧
      (cs.length ≤ fuel → (rdcLoop dup fuel cs j).1.Pairwise fun c' c => dup c c' = false) := by
  induction fuel generalizing cs j with
  | zero =>
    refine ⟨hj, hl, List.Sublist.refl _, rfl, rfl, ⟨id, ?_⟩, fun _ => rfl, fun h => ?_⟩
    · conv_lhs => rw [show (rdcLoop dup 0 cs j).2.eqns = j.eqns from rfl, ← List.map_id j.eqns]
      exact List.map_congr_left fun e _ => (substE_id e).symm
    · have : cs = [] := List.length_eq_zero_iff.mp (by omega)
      subst this
      exact List.Pairwise.nil
  | succ fuel ih =>
    cases hf : findPair dup cs 0 with
    | none =>
      have e : rdcLoop dup (fuel + 1) cs j = (cs, j) := by
        show (match findPair dup cs 0 with | none => (cs, j) | some (i, k) => _) = _
        rw [hf]
      rw [e]
      refine ⟨hj, hl, List.Sublist.refl _, rfl, rfl, ⟨id, ?_⟩, fun _ => rfl, fun h => ?_⟩
      · conv_lhs => rw [← List.map_id j.eqns]
        exact List.map_congr_left fun e _ => (substE_id e).symm
      · rw [List.pairwise_iff_getElem]
        intro k i hk hi hki
        exact findPair_none hf i k hi hki (Nat.zero_le _)
    | some q =>
      obtain ⟨i, k⟩ := q
      obtain ⟨hki, -, hi, hk, hdup⟩ := findPair_some hf
      have e : rdcLoop dup (fuel + 1) cs j = rdcLoop dup fuel (cs.eraseIdx k) (rdcStep j i k) := by
        show (match findPair dup cs 0 with | none => (cs, j) | some (i, k) => _) = _
        rw [hf]; rfl
      obtain ⟨a1, a2, a3, a4, ⟨σ, a5⟩, a6⟩ := rdcStep_spec S run hj hki (by omega)
      obtain ⟨b1, b2, b3, b4, b5, ⟨τ, b6⟩, b7, b8⟩ := ih (cs.eraseIdx k) (rdcStep j i k) a1
        (by rw [a2, List.length_eraseIdx_of_lt hk, List.length_eraseIdx_of_lt (by omega), hl])
        (fun c hc c' hc' => hd c (List.mem_of_mem_eraseIdx hc) c' (List.mem_of_mem_eraseIdx hc'))
      rw [e]
      refine ⟨b1, b2, b3.trans (List.eraseIdx_sublist _ _), by rw [b4, a3], by rw [b5, a4], ⟨τ ∘ σ, ?_⟩, fun args => ?_, fun h => b8 ?_⟩
      · rw [b6, a5, List.map_map]
        exact List.map_congr_left fun e _ => substE_comp σ τ e
      · rw [b7, map_eraseIdx']
        refine a6 (cs.map S.const) (by rw [List.length_map, hl]) ?_ args
        rw [List.getElem?_map, List.getElem?_map, List.getElem?_eq_getElem hi, List.getElem?_eq_getElem hk]
        simp only [Option.map_some]
        rw [hd _ (List.getElem_mem hi) _ (List.getElem_mem hk) hdup]
      · rw [List.length_eraseIdx_of_lt hk]; omega

/-! ### Duplicate equations -/

theorem KeySound.subst {S : Sem L P C V} {run : J → List V → List V → List V} {K : Keys L P C J} {es : List (Eqn L P C J)} (h : KeySound S run K es) (σ : Var → Var) : KeySound S run K (es.map (substE σ)) := by
  have hl : ∀ (e : Eqn L P C J) x, Atom.lit x ∈ (substE σ e).ins → Atom.lit x ∈ e.ins := by
    intro e x hx
    obtain ⟨a, ha, hax⟩ := List.mem_map.mp (show Atom.lit x ∈ e.ins.map (substA σ) from hx)
    cases a with
    | var v => cases hax
    | lit y => cases hax; exact ha
  constructor
  · intro e1 h1 e2 h2 x y hx hy
    obtain ⟨f1, g1, rfl⟩ := List.mem_map.mp h1
    obtain ⟨f2, g2, rfl⟩ := List.mem_map.mp h2
    exact h.lits f1 g1 f2 g2 x y (hl _ _ hx) (hl _ _ hy)
  · intro e1 h1 e2 h2
    obtain ⟨f1, g1, rfl⟩ := List.mem_map.mp h1
    obtain ⟨f2, g2, rfl⟩ := List.mem_map.mp h2
    exact h.params f1 g1 f2 g2

theorem KeySound.sub {S : Sem L P C V} {run : J → List V → List V → List V} {K : Keys L P C J} {es es' : List (Eqn L P C J)} (h : KeySound S run K es) (hs : ∀ e ∈ es', e ∈ es) : KeySound S run K es' :=
  ⟨fun e1 h1 e2 h2 => h.lits e1 (hs _ h1) e2 (hs _ h2), fun e1 h1 e2 h2 => h.params e1 (hs _ h1) e2 (hs _ h2)⟩

theorem Typed.subst {S : Sem L P C V} {run : J → List V → List V → List V} {es : List (Eqn L P C J)} (h : Typed S run es) (σ : Var → Var) : Typed S run (es.map (substE σ)) := by
  intro e he args ha
  obtain ⟨f, g, rfl⟩ := List.mem_map.mp he
  rw [show (substE σ f).results S run args = f.results S run args from rfl, h f g args (by simpa [substE] using ha)]
  simp [substE]

theorem Typed.sub {S : Sem L P C V} {run : J → List V → List V → List V} {es es' : List (Eqn L P C J)} (h : Typed S run es) (hs : ∀ e ∈ es', e ∈ es) : Typed S run es' :=
  fun e he => h e (hs e he)

/-- Equal keys: the same primitive, inputs of equal value, equal parameter keys. -/
theorem eqnEq_spec (S : Sem L P C V) {run : J → List V → List V → List V} {K : Keys L P C J} {es : List (Eqn L P C J)} (h : KeySound S run K es) {e1 e2 : Eqn L P C J} (h1 : e1 ∈ es) (h2 : e2 ∈ es) (hk : K.eqnEq e1 e2 = true) :
    e1.ins.length = e2.ins.length ∧ (∀ env, e1.ins.map (Atom.eval S env) = e2.ins.map (Atom.eval S env)) ∧ (∀ args, e1.results S run args = e2.results S run args) ∧ e1.ins.flatMap Atom.vars = e2.ins.flatMap Atom.vars := by
  unfold Keys.eqnEq at hk
  simp only [Bool.and_eq_true, decide_eq_true_eq, beq_iff_eq] at hk
  obtain ⟨⟨hp, hl, hz⟩, hpar⟩ := hk
  have key : ∀ (A B : List (Atom L)), (∀ x ∈ A, x ∈ e1.ins) → (∀ x ∈ B, x ∈ e2.ins) → A.length = B.length → (A.zip B).all (fun ab => K.atomEq ab.1 ab.2) = true →
      (∀ env, A.map (Atom.eval S env) = B.map (Atom.eval S env)) ∧ A.flatMap Atom.vars = B.flatMap Atom.vars := by
    intro A
    induction A with
    | nil =>
      intro B _ _ hl _
      have : B = [] := List.length_eq_zero_iff.mp hl.symm
      subst this
      exact ⟨fun _ => rfl, rfl⟩
    | cons a A ih =>
      intro B hA hB hl hz
      cases B with
      | nil => simp at hl
      | cons b B =>
        rw [List.zip_cons_cons, List.all_cons, Bool.and_eq_true] at hz
        obtain ⟨i1, i2⟩ := ih B (fun x hx => hA x (by simp [hx])) (fun x hx => hB x (by simp [hx])) (by simpa using hl) hz.2
        have hab : (∀ env, Atom.eval S env a = Atom.eval S env b) ∧ a.vars = b.vars := by
          have h0 := hz.1
          unfold Keys.atomEq at h0
          cases a with
          | var v =>
            cases b with
            | var w =>
              simp only [beq_iff_eq] at h0
              subst h0
              exact ⟨fun _ => rfl, rfl⟩
            | lit y => simp at h0
          | lit x =>
            cases b with
            | var w => simp at h0
            | lit y =>
              simp only [decide_eq_true_eq] at h0
              exact ⟨fun _ => h.lits e1 h1 e2 h2 x y (hA _ (by simp)) (hB _ (by simp)) h0, rfl⟩
        refine ⟨fun env => ?_, ?_⟩
        · rw [List.map_cons, List.map_cons, i1 env, hab.1 env]
        · rw [List.flatMap_cons, List.flatMap_cons, hab.2, i2]
  obtain ⟨k1, k2⟩ := key e1.ins e2.ins (fun _ h => h) (fun _ h => h) hl hz
  exact ⟨hl, k1, h.params e1 h1 e2 h2 hp hpar, k2⟩

/-- Equations that do not bind the variables leave them. -/
theorem evals_not_mem (S : Sem L P C V) (run : J → List V → List V → List V) (es : List (Eqn L P C J)) (env : Var → V) (v : Var) (h : v ∉ es.flatMap Eqn.outs) : es.foldl (Eqn.eval S run) env v = env v := by
  induction es generalizing env with
  | nil => rfl
  | cons e es ih =>
    rw [List.flatMap_cons, List.mem_append, not_or] at h
    rw [List.foldl_cons, ih _ h.2]
    exact bind_not_mem _ _ _ _ h.1

/-- One round of `remove_duplicate_equations`. -/
def rdeStep (j : Jaxpr L P C J) (i : ℕ) (e1 e2 : Eqn L P C J) : Jaxpr L P C J :=
  let j' := (e1.outs.zip e2.outs).foldl (fun j p => replaceVar j p.1 p.2) j
  { j' with eqns := j'.eqns.eraseIdx i }

theorem rdeStep_spec (S : Sem L P C V) (run : J → List V → List V → List V) {j : Jaxpr L P C J} (hj : SSA j) (ht : Typed S run j.eqns) {K : Keys L P C J} (hK : KeySound S run K j.eqns)
    {A B D : List (Eqn L P C J)} {e1 e2 : Eqn L P C J} (hsplit : j.eqns = (A ++ e2 :: B) ++ e1 :: D) (hk : K.eqnEq e1 e2 = true) :
    ∃ σ, rdeStep j (A ++ e2 :: B).length e1 e2 = { constvars := j.constvars, invars := j.invars, outs := j.outs.map (substA σ), eqns := (A ++ e2 :: B) ++ D.map (substE σ) } ∧
      SSA (rdeStep j (A ++ e2 :: B).length e1 e2) ∧
      ∀ cs args, Jaxpr.evalWith S run (rdeStep j (A ++ e2 :: B).length e1 e2) cs args = Jaxpr.evalWith S run j cs args := by
  have m1 : e1 ∈ j.eqns := by rw [hsplit]; simp
  have m2 : e2 ∈ j.eqns := by rw [hsplit]; simp
  obtain ⟨hil, hval, hres, -⟩ := eqnEq_spec S hK m1 m2 hk
  have hol : e1.outs.length = e2.outs.length := by
    have a := ht e1 m1 (e1.ins.map fun _ => S.dflt) (by simp)
    have b := ht e2 m2 (e1.ins.map fun _ => S.dflt) (by simp [hil])
    rw [hres] at a
    omega
  have honce := hj.once
  unfold binders at honce
  rw [hsplit, List.flatMap_append, List.flatMap_cons] at honce
  -- the binders before, in and after `e1`
  have hpre : ∀ v ∈ e1.outs, v ∉ (j.constvars ++ j.invars) ∧ v ∉ (A ++ e2 :: B).flatMap Eqn.outs ∧ v ∉ D.flatMap Eqn.outs := by
    intro v hv
    obtain ⟨n1, n2, n3⟩ := List.nodup_append.mp honce
    obtain ⟨n4, n5, n6⟩ := List.nodup_append.mp n2
    obtain ⟨n7, n8, n9⟩ := List.nodup_append.mp n5
    refine ⟨fun hm => n3 v hm v (List.mem_append_right _ (List.mem_append_left _ hv)) rfl, fun hm => n6 v hm v (List.mem_append_left _ hv) rfl, fun hm => n9 v hv v hm rfl⟩
  have hnd1 : e1.outs.Nodup := by
    obtain ⟨n1, n2, n3⟩ := List.nodup_append.mp honce
    obtain ⟨n4, n5, n6⟩ := List.nodup_append.mp n2
    exact (List.nodup_append.mp n5).1
  have h2in : ∀ v ∈ e2.outs, v ∈ (A ++ e2 :: B).flatMap Eqn.outs := fun v hv => by
    rw [List.mem_flatMap]; exact ⟨e2, by simp, hv⟩
  have h2D : ∀ v ∈ e2.outs, v ∉ D.flatMap Eqn.outs := by
    intro v hv hm
    obtain ⟨n1, n2, n3⟩ := List.nodup_append.mp honce
    obtain ⟨n4, n5, n6⟩ := List.nodup_append.mp n2
    exact n6 v (h2in v hv) v (List.mem_append_right _ hm) rfl
  have hnd2 : e2.outs.Nodup := by
    obtain ⟨n1, n2, n3⟩ := List.nodup_append.mp honce
    obtain ⟨n4, n5, n6⟩ := List.nodup_append.mp n2
    rw [List.flatMap_append, List.flatMap_cons] at n4
    exact (List.nodup_append.mp (List.nodup_append.mp n4).2.1).1
  have h2B : ∀ v ∈ e2.outs, v ∉ B.flatMap Eqn.outs := by
    intro v hv hm
    obtain ⟨n1, n2, n3⟩ := List.nodup_append.mp honce
    obtain ⟨n4, n5, n6⟩ := List.nodup_append.mp n2
    rw [List.flatMap_append, List.flatMap_cons] at n4
    exact (List.nodup_append.mp (List.nodup_append.mp n4).2.1).2.2 v hv v hm rfl
  -- the renaming
  have hfst : (e1.outs.zip e2.outs).map Prod.fst = e1.outs := List.map_fst_zip (by omega)
  have hnot12 : ∀ v ∈ e2.outs, v ∉ e1.outs := fun v hv hm => (hpre v hm).2.1 (h2in v hv)
  have σfix : ∀ v, v ∉ e1.outs → repl (e1.outs.zip e2.outs) v = v := fun v hv => repl_not_mem (by rw [hfst]; exact hv)
  have σmap : ∀ i (hi : i < e1.outs.length), repl (e1.outs.zip e2.outs) e1.outs[i] = e2.outs[i]'(by omega) := by
    intro i hi
    have hp : (e1.outs[i], e2.outs[i]'(by omega)) ∈ e1.outs.zip e2.outs := by
      have : (e1.outs.zip e2.outs)[i]'(by rw [List.length_zip]; omega) = (e1.outs[i], e2.outs[i]'(by omega)) := List.getElem_zip
      rw [← this]
      exact List.getElem_mem _
    refine repl_mem (by rw [hfst]; exact hnd1) (fun p hp => ?_) hp
    rw [hfst]
    exact hnot12 _ (List.of_mem_zip hp).2
  generalize hσ : repl (e1.outs.zip e2.outs) = σ at σfix σmap
  have σcase : ∀ v, (v ∉ e1.outs ∧ σ v = v) ∨ (v ∈ e1.outs ∧ σ v ∈ e2.outs) := by
    intro v
    by_cases hv : v ∈ e1.outs
    · right
      obtain ⟨i, hi, rfl⟩ := List.getElem_of_mem hv
      exact ⟨hv, by rw [σmap i hi]; exact List.getElem_mem _⟩
    · exact .inl ⟨hv, σfix v hv⟩
  have hfD : ∀ e ∈ D, Fresh σ e.outs := by
    intro e he v hv
    have hvD : v ∈ D.flatMap Eqn.outs := List.mem_flatMap.mpr ⟨e, he, hv⟩
    refine ⟨σfix v fun hm => (hpre v hm).2.2 hvD, fun w hw => ?_⟩
    rcases σcase w with ⟨_, h⟩ | ⟨_, h⟩
    · rw [← hw, h]
    · rw [hw] at h
      exact absurd hvD (h2D v h)
  have hsc := hj.inScope
  rw [hsplit, scoped_append] at hsc
  have hB0 : ∀ v ∈ (j.constvars ++ j.invars), σ v = v := fun v hv => σfix v fun hm => (hpre v hm).1 hv
  have hpresub : (A ++ e2 :: B).map (substE σ) = A ++ e2 :: B := by
    conv_rhs => rw [← List.map_id (A ++ e2 :: B)]
    refine List.map_congr_left fun e he => ?_
    refine substE_fix (fun v hv => ?_) (fun v hv => ?_)
    · refine σfix v fun hm => ?_
      rcases List.mem_append.mp (scoped_vars hsc.1 he hv) with h | h
      · exact (hpre v hm).1 h
      · exact (hpre v hm).2.1 h
    · exact σfix v fun hm => (hpre v hm).2.1 (List.mem_flatMap.mpr ⟨e, he, hv⟩)
  have hform : rdeStep j (A ++ e2 :: B).length e1 e2 = { constvars := j.constvars, invars := j.invars, outs := j.outs.map (substA σ), eqns := (A ++ e2 :: B) ++ D.map (substE σ) } := by
    unfold rdeStep
    rw [foldl_replace, hσ]
    unfold subst
    simp only
    rw [hsplit, List.map_append, hpresub, List.map_cons]
    have c1 : j.constvars.map σ = j.constvars := by
      conv_rhs => rw [← List.map_id j.constvars]
      exact List.map_congr_left fun v hv => hB0 v (List.mem_append_left _ hv)
    have c2 : j.invars.map σ = j.invars := by
      conv_rhs => rw [← List.map_id j.invars]
      exact List.map_congr_left fun v hv => hB0 v (List.mem_append_right _ hv)
    rw [c1, c2]
    congr 1
    rw [List.eraseIdx_append_of_length_le (le_refl _), Nat.sub_self]
    rfl
  refine ⟨σ, hform, ?_, fun cs args => ?_⟩
  · rw [hform]
    have hDo : (D.map (substE σ)).flatMap Eqn.outs = D.flatMap Eqn.outs := by
      rw [List.flatMap_map]
      have : ∀ (l : List (Eqn L P C J)), (∀ e ∈ l, Fresh σ e.outs) → l.flatMap (fun a => (substE σ a).outs) = l.flatMap Eqn.outs := by
        intro l
        induction l with
        | nil => intro _; rfl
        | cons e l ih =>
          intro h
          rw [List.flatMap_cons, List.flatMap_cons, ih (fun e' he' => h e' (by simp [he']))]
          congr 1
          exact (h e (by simp)).map
      exact this _ hfD
    refine ⟨?_, ?_⟩
    · unfold binders
      simp only
      rw [List.flatMap_append, hDo]
      refine honce.sublist ?_
      refine List.Sublist.append_left (List.Sublist.append_left ?_ _) _
      exact List.sublist_append_right _ _
    · simp only
      rw [scoped_append]
      refine ⟨hsc.1, scoped_subst hfD (fun v hv => ?_) hsc.2.2⟩
      rcases σcase v with ⟨h, h'⟩ | ⟨h, h'⟩
      · rw [h']
        rcases List.mem_append.mp hv with hv | hv
        · exact hv
        · exact absurd hv h
      · exact List.mem_append_right _ (h2in _ h')
  · rw [hform]
    unfold Jaxpr.evalWith
    simp only
    generalize bind (bind (fun _ => S.dflt) j.constvars cs) j.invars args = env0
    rw [hsplit, List.foldl_append (l := A ++ e2 :: B), List.foldl_append (l := A ++ e2 :: B) (l' := e1 :: D), List.foldl_cons]
    have hrel : Rel σ (e1.eval S run ((A ++ e2 :: B).foldl (Eqn.eval S run) env0)) ((A ++ e2 :: B).foldl (Eqn.eval S run) env0) := by
      intro v
      rcases σcase v with ⟨h, h'⟩ | ⟨h, h'⟩
      · rw [h']
        exact bind_not_mem _ _ _ _ h
      · obtain ⟨i, hi, rfl⟩ := List.getElem_of_mem h
        rw [σmap i hi]
        -- the inputs of `e1` have the values that the inputs of `e2` had
        have hins : ∀ v ∈ e2.ins.flatMap Atom.vars, v ∉ (e2 :: B).flatMap Eqn.outs := by
          intro w hw hm
          have hs1 := scoped_append.mp hsc.1
          have hw' := hs1.2.1 w hw
          obtain ⟨n1, n2, n3⟩ := List.nodup_append.mp honce
          obtain ⟨n4, n5, n6⟩ := List.nodup_append.mp n2
          rw [List.flatMap_append] at n4 n3
          rcases List.mem_append.mp hw' with hw' | hw'
          · exact n3 w hw' w (List.mem_append_left _ (List.mem_append_right _ hm)) rfl
          · exact (List.nodup_append.mp n4).2.2 w hw' w hm rfl
        have hargs : e1.ins.map (Atom.eval S ((A ++ e2 :: B).foldl (Eqn.eval S run) env0)) = e2.ins.map (Atom.eval S (A.foldl (Eqn.eval S run) env0)) := by
          rw [hval]
          refine eval_atoms S fun w hw => ?_
          rw [List.foldl_append]
          exact evals_not_mem S run (e2 :: B) _ w (hins w hw)
        have L1 := ht e1 m1 (e1.ins.map (Atom.eval S ((A ++ e2 :: B).foldl (Eqn.eval S run) env0))) (by simp)
        have l1 : e1.eval S run ((A ++ e2 :: B).foldl (Eqn.eval S run) env0) e1.outs[i] = (e1.results S run (e1.ins.map (Atom.eval S ((A ++ e2 :: B).foldl (Eqn.eval S run) env0))))[i]'(by omega) :=
          bind_getElem hnd1 L1.symm _ i hi
        rw [l1]
        have L2 := ht e2 m2 (e2.ins.map (Atom.eval S (A.foldl (Eqn.eval S run) env0))) (by simp)
        have l2 : e2.eval S run (A.foldl (Eqn.eval S run) env0) (e2.outs[i]'(by omega)) = (e2.results S run (e2.ins.map (Atom.eval S (A.foldl (Eqn.eval S run) env0))))[i]'(by omega) :=
          bind_getElem hnd2 L2.symm _ i (by omega)
        have l3 : (A ++ e2 :: B).foldl (Eqn.eval S run) env0 (e2.outs[i]'(by omega)) = (e2.results S run (e2.ins.map (Atom.eval S (A.foldl (Eqn.eval S run) env0))))[i]'(by omega) := by
          rw [List.foldl_append, List.foldl_cons, evals_not_mem S run B _ _ (h2B _ (List.getElem_mem _)), l2]
        rw [l3]
        simp only [hargs, hres]
    exact ((hrel.evals S run hfD).atoms S j.outs).symm

end E3nn.JX

import Verif.Model.Jaxpr
import Mathlib.Data.List.Basic
import Mathlib.Data.List.Nodup
import Mathlib.Data.List.GetD

/-! Dead code removal preserves meaning. -/

namespace E3nn.JX

variable {L P C J V : Type}

theorem bind_nil (env : Var → V) (xs : List V) : bind env [] xs = env := by simp [bind]

theorem bind_cons (env : Var → V) (v : Var) (vs : List Var) (x : V) (xs : List V) : bind env (v :: vs) (x :: xs) = bind (fun w => if w = v then x else env w) vs xs := by
  simp [bind]

/-- The value of a variable after updates depends only on the updates of that variable. -/
theorem foldl_update (l : List (Var × V)) (env env' : Var → V) (p : Var → Bool) (v : Var) (hv : p v = true) (h : env v = env' v) :
    l.foldl (fun env q => fun w => if w = q.1 then q.2 else env w) env v = (l.filter fun q => p q.1).foldl (fun env q => fun w => if w = q.1 then q.2 else env w) env' v := by
  induction l generalizing env env' with
  | nil => exact h
  | cons a l ih =>
    rw [List.foldl_cons, List.filter_cons]
    by_cases ha : p a.1
    · rw [if_pos ha, List.foldl_cons]
      exact ih _ _ (by by_cases e : v = a.1 <;> simp [e, h])
    · rw [if_neg ha]
      refine ih _ _ ?_
      have : v ≠ a.1 := fun e => ha (e ▸ hv)
      simp only [this, if_false]
      exact h

theorem bind_agree (env env' : Var → V) (vs : List Var) (xs : List V) (v : Var) (h : env v = env' v) : bind env vs xs v = bind env' vs xs v := by
  have := foldl_update (vs.zip xs) env env' (fun _ => true) v rfl h
  simpa [bind] using this

theorem bind_not_mem (env : Var → V) (vs : List Var) (xs : List V) (v : Var) (h : v ∉ vs) : bind env vs xs v = env v := by
  have := foldl_update (vs.zip xs) env env (fun w => decide (w = v)) v (by simp) rfl
  unfold bind
  rw [this, List.filter_eq_nil_iff.mpr]
  · rfl
  · intro q hq
    have := List.of_mem_zip hq
    simp only [decide_eq_true_eq]
    intro e
    exact h (e ▸ this.1)

/-- The positions kept by a filter. -/
theorem zipIdx_filter_snd {α : Type} (l : List α) (p : α → Bool) (k : ℕ) : ((l.zipIdx k).filter fun q => p q.1).map Prod.snd = (List.range' k l.length).filter fun i => (l[i - k]?).any p := by
  induction l generalizing k with
  | nil => simp
  | cons a l ih =>
    have h2 : (List.range' (k + 1) l.length).filter (fun i => ((a :: l)[i - k]?).any p) = (List.range' (k + 1) l.length).filter fun i => (l[i - (k + 1)]?).any p := by
      refine List.filter_congr fun i hi => ?_
      rw [List.mem_range'_1] at hi
      have : i - k = (i - (k + 1)) + 1 := by omega
      rw [this, List.getElem?_cons_succ]
    rw [List.zipIdx_cons, List.length_cons, List.range'_succ, List.filter_cons, List.filter_cons]
    simp only [Nat.sub_self, List.getElem?_cons_zero, Option.any_some]
    rw [h2, ← ih (k + 1)]
    split <;> simp

theorem map_getD_filter {α : Type} (xs : List V) (l : List α) (p : α → Bool) (hl : l.length = xs.length) (d : V) :
    (((l.zipIdx).filter fun q => p q.1).map Prod.snd).map (fun i => xs.getD i d) = ((l.zip xs).filter fun q => p q.1).map Prod.snd := by
  have key : ∀ (l : List α) (xs : List V) (k : ℕ) (ys : List V), l.length = xs.length → (∀ i, ys.getD (k + i) d = xs.getD i d) →
      (((l.zipIdx k).filter fun q => p q.1).map Prod.snd).map (fun i => ys.getD i d) = ((l.zip xs).filter fun q => p q.1).map Prod.snd := by
    intro l
    induction l with
    | nil => intro xs k ys _ _; simp
    | cons a l ih =>
      intro xs k ys hl hys
      cases xs with
      | nil => simp at hl
      | cons x xs =>
        simp only [List.length_cons, Nat.add_right_cancel_iff] at hl
        have h1 := ih xs (k + 1) ys hl (fun i => by
          have := hys (i + 1)
          rw [List.getD_cons_succ] at this
          rw [← this]; congr 1; omega)
        have h0 : ys.getD k d = x := by simpa using hys 0
        rw [List.zipIdx_cons, List.zip_cons_cons, List.filter_cons, List.filter_cons]
        simp only
        by_cases ha : p a
        · simp only [ha, if_true, List.map_cons, h0, h1]
        · simp only [ha]
          exact h1
  exact key l xs 0 xs hl (fun i => by simp)

theorem filter_zip {α : Type} (l : List α) (xs : List V) (p : α → Bool) (hl : l.length = xs.length) : (l.filter p).zip (((l.zip xs).filter fun q => p q.1).map Prod.snd) = (l.zip xs).filter fun q => p q.1 := by
  induction l generalizing xs with
  | nil => simp
  | cons a l ih =>
    cases xs with
    | nil => simp at hl
    | cons x xs =>
      simp only [List.length_cons, Nat.add_right_cancel_iff] at hl
      rw [List.zip_cons_cons, List.filter_cons, List.filter_cons]
      by_cases ha : p a
      · simp only [ha, if_true, List.map_cons, List.zip_cons_cons, ih xs hl]
      · simp only [ha]
        exact ih xs hl

/-- Binding only the needed variables. -/
theorem bind_filter (env env' : Var → V) (vs : List Var) (xs : List V) (p : Var → Bool) (hl : vs.length = xs.length) (d : V) (v : Var) (hv : p v = true) (h : env v = env' v) :
    bind env vs xs v = bind env' (vs.filter p) ((((vs.zipIdx).filter fun q => p q.1).map Prod.snd).map fun i => xs.getD i d) v := by
  unfold bind
  rw [map_getD_filter xs vs p hl d, filter_zip vs xs p hl]
  exact foldl_update _ _ _ _ _ hv h

/-- Selecting entries by a set of positions. -/
theorem select_eq {α : Type} (l : List α) (idx : List ℕ) (hidx : idx = (List.range l.length).filter fun i => idx.contains i) (f : α → V) (d : V) :
    ((l.zipIdx.filter fun ai => idx.contains ai.2).map Prod.fst).map f = idx.map fun i => (l.map f).getD i d := by
  have key : ∀ (l : List α) (k : ℕ) (ys : List V), (∀ i, i < l.length → ys.getD (k + i) d = (l.map f).getD i d) →
      (((l.zipIdx k).filter fun ai => idx.contains ai.2).map Prod.fst).map f = ((List.range' k l.length).filter fun i => idx.contains i).map fun i => ys.getD i d := by
    intro l
    induction l with
    | nil => intro k ys _; simp
    | cons a l ih =>
      intro k ys hys
      have h1 := ih (k + 1) ys (fun i hi => by
        have := hys (i + 1) (by simpa using hi)
        rw [List.map_cons, List.getD_cons_succ] at this
        rw [← this]; congr 1; omega)
      have h0 : ys.getD k d = f a := by
        have := hys 0 (by simp)
        simpa using this
      rw [List.zipIdx_cons, List.length_cons, List.range'_succ, List.filter_cons, List.filter_cons]
      simp only
      by_cases ha : idx.contains k
      · simp only [ha, if_true, List.map_cons, h0, h1]
      · simp only [ha]
        exact h1
  have := key l 0 (l.map f) (fun i _ => by simp)
  rw [this]
  conv_rhs => rw [hidx]
  rw [List.range_eq_range']

/-- Environments agree on a set of variables. -/
def Agree (N : List Var) (env env' : Var → V) : Prop := ∀ v ∈ N, env v = env' v

theorem eval_atoms (S : Sem L P C V) {env env' : Var → V} {as : List (Atom L)} (h : Agree (as.flatMap Atom.vars) env env') : as.map (Atom.eval S env) = as.map (Atom.eval S env') := by
  refine List.map_congr_left fun a ha => ?_
  cases a with
  | var v => exact h v (List.mem_flatMap.mpr ⟨_, ha, by simp [Atom.vars]⟩)
  | lit x => rfl

/-- What is needed of the jaxprs called by `xla_call`. -/
structure CallSpec (S : Sem L P C V) (run : J → List V → List V → List V) (dceJ : J → List ℕ → J × List ℕ) (nIn nOut : J → ℕ) (s : J) : Prop where
  len : ∀ cs args, (run s cs args).length = nOut s
  idx : ∀ oi, (∀ i ∈ oi, i < nOut s) → (dceJ s oi).2 = (List.range (nIn s)).filter fun i => (dceJ s oi).2.contains i
  same : ∀ oi, (∀ i ∈ oi, i < nOut s) → ∀ cs args, args.length = nIn s →
    run (dceJ s oi).1 cs ((dceJ s oi).2.map fun i => args.getD i S.dflt) = oi.map fun i => (run s cs args).getD i S.dflt

/-- Every `xla_call` has one open jaxpr with the right numbers of inputs and outputs. -/
def EqnOK (ok : J → Prop) (nIn nOut : J → ℕ) (e : Eqn L P C J) : Prop :=
  e.prim = .xlaCall → ∃ s, e.subs = [.opn s] ∧ ok s ∧ e.ins.length = nIn s ∧ e.outs.length = nOut s

theorem dceEqn_other (donate : List ℕ → P → P) (dceJ : J → List ℕ → J × List ℕ) (needed : List Var) {e : Eqn L P C J} (hp : e.prim ≠ .xlaCall) : dceEqn donate dceJ needed e = e := by
  unfold dceEqn
  split
  · rename_i hh _; exact absurd hh hp
  · rfl

theorem dceEqn_call (donate : List ℕ → P → P) (dceJ : J → List ℕ → J × List ℕ) (needed : List Var) {e : Eqn L P C J} (hp : e.prim = .xlaCall) {s : J} (hs : e.subs = [.opn s]) :
    dceEqn donate dceJ needed e = { prim := .xlaCall, params := donate (dceJ s ((e.outs.zipIdx.filter fun vi => needed.contains vi.1).map Prod.snd)).2 e.params
                                    subs := [.opn (dceJ s ((e.outs.zipIdx.filter fun vi => needed.contains vi.1).map Prod.snd)).1]
                                    outs := e.outs.filter fun v => needed.contains v
                                    ins := (e.ins.zipIdx.filter fun ai => (dceJ s ((e.outs.zipIdx.filter fun vi => needed.contains vi.1).map Prod.snd)).2.contains ai.2).map Prod.fst } := by
  obtain ⟨a, b, c, d, f⟩ := e
  simp only at hp hs
  subst hp hs
  rfl

theorem dceStep_agree (S : Sem L P C V) (run : J → List V → List V → List V) (donate : List ℕ → P → P) (dceJ : J → List ℕ → J × List ℕ) (nIn nOut : J → ℕ)
    {e : Eqn L P C J} (he : EqnOK (CallSpec S run dceJ nIn nOut) nIn nOut e) (acc : List Var × List (Eqn L P C J)) {env env' : Var → V}
    (h : Agree (dceStep donate dceJ e acc).1 env env') :
    (dceStep donate dceJ e acc = acc ∧ Agree acc.1 (e.eval S run env) env') ∨
    ∃ e', (dceStep donate dceJ e acc).2 = e' :: acc.2 ∧ Agree acc.1 (e.eval S run env) (e'.eval S run env') := by
  unfold dceStep at h ⊢
  by_cases hd : e.outs.all (fun v => !acc.1.contains v)
  · rw [if_pos hd] at h ⊢
    refine .inl ⟨rfl, fun v hv => ?_⟩
    unfold Eqn.eval
    rw [bind_not_mem]
    · exact h v hv
    · intro hm
      have := List.all_eq_true.mp hd v hm
      simp [hv] at this
  · rw [if_neg hd] at h ⊢
    right
    refine ⟨_, rfl, ?_⟩
    by_cases hp : e.prim = .xlaCall
    · obtain ⟨s, hs, hok, hin, hout⟩ := he hp
      rw [dceEqn_call donate dceJ acc.1 hp hs] at h ⊢
      intro v hv
      have hN : Agree acc.1 env env' := fun w hw => h w (List.mem_append_right _ hw)
      have hI := eval_atoms S (env := env) (env' := env') fun w hw => h w (List.mem_append_left _ hw)
      simp only at hI
      unfold Eqn.eval Eqn.results
      simp only [hp, hs, Sub.eval]
      have hoi : ∀ i ∈ (e.outs.zipIdx.filter fun vi => acc.1.contains vi.1).map Prod.snd, i < nOut s := by
        intro i hi
        rw [zipIdx_filter_snd, List.mem_filter, List.mem_range'_1] at hi
        omega
      rw [← hI, select_eq e.ins _ (by rw [hin]; exact hok.idx _ hoi) (Atom.eval S env) S.dflt, hok.same _ _ [] _ (by rw [List.length_map, hin])]
      · exact bind_filter env env' e.outs _ (fun w => acc.1.contains w) (by rw [hok.len, hout]) S.dflt v (by simpa using hv) (hN v hv)
      · exact hoi
    · rw [dceEqn_other donate dceJ acc.1 hp] at h ⊢
      intro v hv
      unfold Eqn.eval
      rw [eval_atoms S (env := env) (env' := env') fun w hw => h w (List.mem_append_left _ hw)]
      exact bind_agree _ _ _ _ _ (h v (List.mem_append_right _ hv))

theorem dceEqns_agree (S : Sem L P C V) (run : J → List V → List V → List V) (donate : List ℕ → P → P) (dceJ : J → List ℕ → J × List ℕ) (nIn nOut : J → ℕ)
    (eqns : List (Eqn L P C J)) (he : ∀ e ∈ eqns, EqnOK (CallSpec S run dceJ nIn nOut) nIn nOut e) (N : List Var) {env env' : Var → V}
    (h : Agree (eqns.foldr (dceStep donate dceJ) (N, [])).1 env env') :
    Agree N (eqns.foldl (Eqn.eval S run) env) ((eqns.foldr (dceStep donate dceJ) (N, [])).2.foldl (Eqn.eval S run) env') := by
  induction eqns generalizing env env' with
  | nil => exact h
  | cons e eqns ih =>
    rw [List.foldr_cons] at h ⊢
    rcases dceStep_agree S run donate dceJ nIn nOut (he e (by simp)) _ h with ⟨h1, h2⟩ | ⟨e', h1, h2⟩
    · rw [h1]
      exact ih (fun e he' => he e (by simp [he'])) h2
    · rw [h1, List.foldl_cons, List.foldl_cons]
      exact ih (fun e he' => he e (by simp [he'])) h2

theorem filterMap_outs (l : List (Atom L)) (oi : List ℕ) (h : ∀ i ∈ oi, i < l.length) (f : Atom L → V) (d : V) :
    (oi.filterMap fun i => l[i]?).map f = oi.map fun i => (l.map f).getD i d := by
  induction oi with
  | nil => rfl
  | cons i oi ih =>
    have hi := h i (by simp)
    rw [List.filterMap_cons, List.getElem?_eq_getElem hi]
    simp only [List.map_cons]
    rw [ih (fun k hk => h k (by simp [hk])), List.getD_eq_getElem _ _ (by simpa using hi), List.getElem_map]

theorem dce_idx (donate : List ℕ → P → P) (dceJ : J → List ℕ → J × List ℕ) (j : Jaxpr L P C J) (oi : List ℕ) :
    (dce donate dceJ j oi).2 = (List.range j.invars.length).filter fun i => (dce donate dceJ j oi).2.contains i := by
  unfold dce
  simp only
  rw [zipIdx_filter_snd, ← List.range_eq_range']
  refine List.filter_congr fun i hi => ?_
  rw [Bool.eq_iff_iff, List.contains_iff_mem, List.mem_filter]
  simp only [hi, true_and]

theorem dce_same (S : Sem L P C V) (run : J → List V → List V → List V) (donate : List ℕ → P → P) (dceJ : J → List ℕ → J × List ℕ) (nIn nOut : J → ℕ)
    (j : Jaxpr L P C J) (he : ∀ e ∈ j.eqns, EqnOK (CallSpec S run dceJ nIn nOut) nIn nOut e) (oi : List ℕ) (hoi : ∀ i ∈ oi, i < j.outs.length) (cs args : List V) (ha : args.length = j.invars.length) :
    Jaxpr.evalWith S run (dce donate dceJ j oi).1 cs ((dce donate dceJ j oi).2.map fun i => args.getD i S.dflt) = oi.map fun i => (Jaxpr.evalWith S run j cs args).getD i S.dflt := by
  unfold Jaxpr.evalWith dce
  simp only
  rw [← filterMap_outs j.outs oi hoi]
  symm
  refine eval_atoms S ?_
  apply dceEqns_agree S run donate dceJ nIn nOut j.eqns he
  intro v hv
  exact bind_filter _ _ j.invars args _ ha.symm S.dflt v (by simpa using hv) rfl

end E3nn.JX

import Verif.Lemmas.JaxprDce
import Verif.Spec.Jaxpr
import Mathlib.Data.List.Infix
import Mathlib.Tactic.Common

/-! Removing duplicate constants and equations preserves meaning. -/

namespace E3nn.JX

variable {L P C J V : Type}

/-! ### Substitution of variables -/

def substA (σ : Var → Var) : Atom L → Atom L
  | .var v => .var (σ v)
  | .lit x => .lit x

def substE (σ : Var → Var) (e : Eqn L P C J) : Eqn L P C J := { e with ins := e.ins.map (substA σ), outs := e.outs.map σ }

def subst (σ : Var → Var) (j : Jaxpr L P C J) : Jaxpr L P C J where
  constvars := j.constvars.map σ
  invars := j.invars.map σ
  outs := j.outs.map (substA σ)
  eqns := j.eqns.map (substE σ)

theorem replaceVar_eq (j : Jaxpr L P C J) (old new : Var) : replaceVar j old new = subst (re old new) j := by
  have : (reAtom old new : Atom L → Atom L) = substA (re old new) := by
    funext a; cases a <;> rfl
  unfold replaceVar subst substE
  rw [this]

theorem subst_comp (σ τ : Var → Var) (j : Jaxpr L P C J) : subst τ (subst σ j) = subst (τ ∘ σ) j := by
  have h : ∀ a : Atom L, substA τ (substA σ a) = substA (τ ∘ σ) a := fun a => by cases a <;> rfl
  unfold subst substE
  simp [List.map_map, Function.comp_def, h]

theorem subst_id (j : Jaxpr L P C J) : subst id j = j := by
  have h : (substA id : Atom L → Atom L) = id := by funext a; cases a <;> rfl
  unfold subst substE
  simp [h]

/-- The composite of a list of replacements. -/
def repl (ps : List (Var × Var)) (v : Var) : Var := ps.foldl (fun v p => re p.1 p.2 v) v

theorem foldl_replace (ps : List (Var × Var)) (j : Jaxpr L P C J) : ps.foldl (fun j p => replaceVar j p.1 p.2) j = subst (repl ps) j := by
  induction ps generalizing j with
  | nil => exact (subst_id j).symm
  | cons p ps ih =>
    rw [List.foldl_cons, ih, replaceVar_eq, subst_comp]
    rfl

theorem repl_not_mem {ps : List (Var × Var)} {v : Var} (h : v ∉ ps.map Prod.fst) : repl ps v = v := by
  induction ps with
  | nil => rfl
  | cons p ps ih =>
    simp only [List.map_cons, List.mem_cons, not_or] at h
    show repl ps (re p.1 p.2 v) = v
    unfold re
    rw [if_neg h.1]
    exact ih h.2

theorem repl_mem {ps : List (Var × Var)} (hnd : (ps.map Prod.fst).Nodup) (hdis : ∀ p ∈ ps, p.2 ∉ ps.map Prod.fst) {p : Var × Var} (hp : p ∈ ps) : repl ps p.1 = p.2 := by
  induction ps with
  | nil => simp at hp
  | cons q ps ih =>
    simp only [List.map_cons, List.nodup_cons] at hnd
    show repl ps (re q.1 q.2 p.1) = p.2
    unfold re
    rcases List.mem_cons.mp hp with rfl | hp'
    · rw [if_pos rfl]
      have := hdis p (by simp)
      simp only [List.map_cons, List.mem_cons, not_or] at this
      exact repl_not_mem this.2
    · have hne : p.1 ≠ q.1 := fun e => hnd.1 (e ▸ List.mem_map.mpr ⟨p, hp', rfl⟩)
      rw [if_neg hne]
      exact ih hnd.2 (fun r hr hm => hdis r (by simp [hr]) (by simp only [List.map_cons, List.mem_cons]; exact .inr hm)) hp'

/-- `env` is `env'` after the renaming. -/
def Rel (σ : Var → Var) (env env' : Var → V) : Prop := ∀ v, env v = env' (σ v)

theorem Rel.atoms (S : Sem L P C V) {σ : Var → Var} {env env' : Var → V} (h : Rel σ env env') (as : List (Atom L)) : as.map (Atom.eval S env) = (as.map (substA σ)).map (Atom.eval S env') := by
  rw [List.map_map]
  refine List.map_congr_left fun a _ => ?_
  cases a with
  | var v => exact h v
  | lit x => rfl

/-- The renaming does not touch the variables `vs`. -/
def Fresh (σ : Var → Var) (vs : List Var) : Prop := ∀ v ∈ vs, σ v = v ∧ ∀ w, σ w = v → w = v

theorem Fresh.map {σ : Var → Var} {vs : List Var} (h : Fresh σ vs) : vs.map σ = vs := by
  conv_rhs => rw [← List.map_id vs]
  exact List.map_congr_left fun v hv => (h v hv).1

theorem Rel.bind {σ : Var → Var} {env env' : Var → V} (h : Rel σ env env') {vs : List Var} (hf : Fresh σ vs) (xs : List V) : Rel σ (JX.bind env vs xs) (JX.bind env' (vs.map σ) xs) := by
  rw [hf.map]
  intro v
  by_cases hv : v ∈ vs
  · rw [(hf v hv).1]
    refine bind_agree _ _ _ _ _ ?_
    rw [h v, (hf v hv).1]
  · rw [bind_not_mem _ _ _ _ hv, bind_not_mem, h v]
    intro hm
    have := (hf _ hm).2 v rfl
    exact hv (by rw [this]; exact hm)

theorem Rel.eval (S : Sem L P C V) (run : J → List V → List V → List V) {σ : Var → Var} {env env' : Var → V} (h : Rel σ env env') {e : Eqn L P C J} (hf : Fresh σ e.outs) :
    Rel σ (e.eval S run env) ((substE σ e).eval S run env') := by
  unfold Eqn.eval
  show Rel σ _ (JX.bind env' (e.outs.map σ) (e.results S run ((e.ins.map (substA σ)).map (Atom.eval S env'))))
  rw [← h.atoms S e.ins]
  exact h.bind hf _

theorem Rel.evals (S : Sem L P C V) (run : J → List V → List V → List V) {σ : Var → Var} {env env' : Var → V} (h : Rel σ env env') {es : List (Eqn L P C J)} (hf : ∀ e ∈ es, Fresh σ e.outs) :
    Rel σ (es.foldl (Eqn.eval S run) env) ((es.map (substE σ)).foldl (Eqn.eval S run) env') := by
  induction es generalizing env env' with
  | nil => exact h
  | cons e es ih =>
    rw [List.map_cons, List.foldl_cons, List.foldl_cons]
    exact ih (h.eval S run (hf e (by simp))) (fun e' he' => hf e' (by simp [he']))

/-! ### Well-formed jaxprs -/

theorem scoped_cons {B : List Var} {e : Eqn L P C J} {es : List (Eqn L P C J)} : Scoped B (e :: es) ↔ (∀ v ∈ e.ins.flatMap Atom.vars, v ∈ B) ∧ Scoped (B ++ e.outs) es := Iff.rfl

theorem scoped_append {B : List Var} {A D : List (Eqn L P C J)} : Scoped B (A ++ D) ↔ Scoped B A ∧ Scoped (B ++ A.flatMap Eqn.outs) D := by
  induction A generalizing B with
  | nil => simp [Scoped]
  | cons e A ih =>
    rw [List.cons_append, scoped_cons, scoped_cons, ih, List.flatMap_cons, List.append_assoc, and_assoc]

theorem scoped_mono {B B' : List Var} {A : List (Eqn L P C J)} (h : ∀ v ∈ B, v ∈ B') (hs : Scoped B A) : Scoped B' A := by
  induction A generalizing B B' with
  | nil => trivial
  | cons e A ih =>
    rw [scoped_cons] at hs ⊢
    refine ⟨fun v hv => h v (hs.1 v hv), ih ?_ hs.2⟩
    intro v hv
    rw [List.mem_append] at hv ⊢
    exact hv.imp (h v) id

theorem mem_vars_subst {σ : Var → Var} {as : List (Atom L)} {v : Var} (h : v ∈ (as.map (substA σ)).flatMap Atom.vars) : ∃ w ∈ as.flatMap Atom.vars, v = σ w := by
  rw [List.mem_flatMap] at h
  obtain ⟨a, ha, hv⟩ := h
  rw [List.mem_map] at ha
  obtain ⟨b, hb, rfl⟩ := ha
  cases b with
  | var w =>
    simp only [substA, Atom.vars, List.mem_singleton] at hv
    exact ⟨w, List.mem_flatMap.mpr ⟨_, hb, by simp [Atom.vars]⟩, hv⟩
  | lit x => simp [substA, Atom.vars] at hv

/-- Renaming the equations keeps them scoped. -/
theorem scoped_subst {σ : Var → Var} {B B' : List Var} {A : List (Eqn L P C J)} (hf : ∀ e ∈ A, Fresh σ e.outs) (hB : ∀ v ∈ B, σ v ∈ B') (hs : Scoped B A) : Scoped B' (A.map (substE σ)) := by
  induction A generalizing B B' with
  | nil => trivial
  | cons e A ih =>
    rw [List.map_cons]
    rw [scoped_cons] at hs ⊢
    refine ⟨fun v hv => ?_, ?_⟩
    · obtain ⟨w, hw, rfl⟩ := mem_vars_subst hv
      exact hB w (hs.1 w hw)
    · refine ih (fun e' he' => hf e' (by simp [he'])) (fun v hv => ?_) hs.2
      show σ v ∈ B' ++ e.outs.map σ
      rw [(hf e (by simp)).map, List.mem_append]
      rcases List.mem_append.mp hv with hv | hv
      · exact .inl (hB v hv)
      · rw [((hf e (by simp)) v hv).1]; exact .inr hv

/-- A renaming that moves no used variable changes nothing. -/
theorem substE_fix {σ : Var → Var} {e : Eqn L P C J} (h1 : ∀ v ∈ e.ins.flatMap Atom.vars, σ v = v) (h2 : ∀ v ∈ e.outs, σ v = v) : substE σ e = e := by
  have a : e.ins.map (substA σ) = e.ins := by
    conv_rhs => rw [← List.map_id e.ins]
    refine List.map_congr_left fun x hx => ?_
    cases x with
    | var v =>
      show Atom.var (σ v) = Atom.var v
      rw [h1 v (List.mem_flatMap.mpr ⟨_, hx, by simp [Atom.vars]⟩)]
    | lit x => rfl
  have b : e.outs.map σ = e.outs := by
    conv_rhs => rw [← List.map_id e.outs]
    exact List.map_congr_left fun v hv => h2 v hv
  unfold substE
  rw [a, b]

theorem scoped_vars {B : List Var} {A : List (Eqn L P C J)} (hs : Scoped B A) {e : Eqn L P C J} (he : e ∈ A) {v : Var} (hv : v ∈ e.ins.flatMap Atom.vars) : v ∈ B ++ A.flatMap Eqn.outs := by
  obtain ⟨X, Y, rfl⟩ := List.append_of_mem he
  rw [scoped_append] at hs
  have h1 := hs.2.1 v hv
  rw [List.flatMap_append, ← List.append_assoc]
  exact List.mem_append_left _ h1

/-! ### The search for a pair -/

theorem findPair_some {α : Type} {eq : α → α → Bool} {l : List α} {skip i k : ℕ} (h : findPair eq l skip = some (i, k)) :
    k < i ∧ skip ≤ i ∧ ∃ (hi : i < l.length) (hk : k < l.length), eq l[i] l[k] = true := by
  unfold findPair at h
  obtain ⟨a, ha, h⟩ := List.exists_of_findSome?_eq_some h
  rw [List.mem_range] at ha
  split at h
  · cases h
  · rename_i hs
    rw [Option.map_eq_some_iff] at h
    obtain ⟨b, hb, h⟩ := h
    simp only [Prod.mk.injEq] at h
    obtain ⟨rfl, rfl⟩ := h
    rw [List.findIdx?_eq_some_iff_getElem] at hb
    obtain ⟨hlt, hp, _⟩ := hb
    rw [List.length_take] at hlt
    refine ⟨by omega, by omega, ha, by omega, ?_⟩
    rw [List.getElem?_eq_getElem ha] at hp
    simpa using hp

theorem findPair_none {α : Type} {eq : α → α → Bool} {l : List α} {skip : ℕ} (h : findPair eq l skip = none) :
    ∀ i k (hi : i < l.length) (hki : k < i), skip ≤ i → eq l[i] (l[k]'(by omega)) = false := by
  intro i k hi hki hs
  unfold findPair at h
  rw [List.findSome?_eq_none_iff] at h
  have := h i (List.mem_range.mpr hi)
  rw [if_neg (by omega), Option.map_eq_none_iff, List.findIdx?_eq_none_iff] at this
  have := this (l[k]'(by omega)) (by
    rw [List.mem_take_iff_getElem]
    exact ⟨k, by omega, rfl⟩)
  rw [List.getElem?_eq_getElem hi] at this
  simpa using this

/-! ### Duplicate constants -/

theorem zip_eraseIdx {α β : Type} (l : List α) (m : List β) (k : ℕ) : (l.eraseIdx k).zip (m.eraseIdx k) = (l.zip m).eraseIdx k := by
  induction l generalizing m k with
  | nil => simp
  | cons a l ih =>
    cases m with
    | nil => simp
    | cons b m =>
      cases k with
      | zero => simp
      | succ k => simp [ih]

theorem filter_eraseIdx {α : Type} (l : List α) (k : ℕ) (p : α → Bool) (h : ∀ (hk : k < l.length), p l[k] = false) : (l.eraseIdx k).filter p = l.filter p := by
  induction l generalizing k with
  | nil => simp
  | cons a l ih =>
    cases k with
    | zero =>
      have := h (by simp)
      simp only [List.getElem_cons_zero] at this
      simp [this]
    | succ k =>
      rw [List.eraseIdx_cons_succ, List.filter_cons, List.filter_cons, ih k (fun hk => by have := h (by simpa using hk); simpa only [List.getElem_cons_succ] using this)]

theorem bind_getElem {vs : List Var} (hnd : vs.Nodup) {xs : List V} (hl : vs.length = xs.length) (env : Var → V) (i : ℕ) (hi : i < vs.length) : bind env vs xs vs[i] = xs[i]'(by omega) := by
  induction vs generalizing xs env i with
  | nil => simp at hi
  | cons v vs ih =>
    cases xs with
    | nil => simp at hl
    | cons x xs =>
      simp only [List.length_cons, Nat.add_right_cancel_iff] at hl
      rw [List.nodup_cons] at hnd
      rw [bind_cons]
      cases i with
      | zero =>
        simp only [List.getElem_cons_zero]
        rw [bind_not_mem _ _ _ _ hnd.1, if_pos rfl]
      | succ i =>
        simp only [List.getElem_cons_succ]
        exact ih hnd.2 hl _ i (by simpa using hi)

theorem fresh_re {old new : Var} {vs : List Var} (h1 : old ∉ vs) (h2 : new ∉ vs) : Fresh (re old new) vs := by
  intro v hv
  have a : v ≠ old := fun e => h1 (e ▸ hv)
  have b : v ≠ new := fun e => h2 (e ▸ hv)
  refine ⟨if_neg a, fun w hw => ?_⟩
  unfold re at hw
  split at hw
  · exact absurd hw.symm b
  · exact hw

/-- One round of `remove_duplicate_constants`. -/
def rdcStep (j : Jaxpr L P C J) (i k : ℕ) : Jaxpr L P C J := replaceVar { j with constvars := j.constvars.eraseIdx k } (j.constvars.getD k 0) (j.constvars.getD i 0)

theorem rdcStep_spec (S : Sem L P C V) (run : J → List V → List V → List V) {j : Jaxpr L P C J} (hj : SSA j) {i k : ℕ} (hki : k < i) (hi : i < j.constvars.length) :
    SSA (rdcStep j i k) ∧ (rdcStep j i k).constvars = j.constvars.eraseIdx k ∧ (rdcStep j i k).invars = j.invars ∧ (rdcStep j i k).outs.length = j.outs.length ∧
      (∃ σ, (rdcStep j i k).eqns = j.eqns.map (substE σ)) ∧
      ∀ vals : List V, vals.length = j.constvars.length → vals[i]? = vals[k]? → ∀ args, Jaxpr.evalWith S run (rdcStep j i k) (vals.eraseIdx k) args = Jaxpr.evalWith S run j vals args := by
  have hk : k < j.constvars.length := by omega
  have e1 : j.constvars.getD k 0 = j.constvars[k] := List.getD_eq_getElem _ _ hk
  have e2 : j.constvars.getD i 0 = j.constvars[i] := List.getD_eq_getElem _ _ hi
  have honce := hj.once
  unfold binders at honce
  have hcn : j.constvars.Nodup := (List.nodup_append.mp (List.nodup_append.mp honce).1).1
  have hdisj : ∀ v ∈ j.constvars, v ∉ j.invars ∧ v ∉ j.eqns.flatMap Eqn.outs := by
    intro v hv
    constructor
    · intro hm
      exact (List.nodup_append.mp (List.nodup_append.mp honce).1).2.2 v hv v hm rfl
    · intro hm
      exact (List.nodup_append.mp honce).2.2 v (List.mem_append_left _ hv) v hm rfl
  have hold := hdisj _ (List.getElem_mem hk)
  have hnew := hdisj _ (List.getElem_mem hi)
  have hne : j.constvars[k] ≠ j.constvars[i] := fun e => by
    have := (List.Nodup.getElem_inj_iff hcn).mp e
    omega
  have holdE : j.constvars[k] ∉ j.constvars.eraseIdx k := by
    intro hm
    rw [List.mem_eraseIdx_iff_getElem] at hm
    obtain ⟨a, ha, hak, he⟩ := hm
    exact hak ((List.Nodup.getElem_inj_iff hcn).mp he)
  have hcfix : (j.constvars.eraseIdx k).map (re j.constvars[k] j.constvars[i]) = j.constvars.eraseIdx k := by
    conv_rhs => rw [← List.map_id (j.constvars.eraseIdx k)]
    refine List.map_congr_left fun v hv => ?_
    exact if_neg fun (e : v = j.constvars[k]) => holdE (by rw [← e]; exact hv)
  have hffr : ∀ e ∈ j.eqns, Fresh (re j.constvars[k] j.constvars[i]) e.outs := by
    intro e he
    refine fresh_re (fun h => hold.2 (List.mem_flatMap.mpr ⟨e, he, h⟩)) (fun h => hnew.2 (List.mem_flatMap.mpr ⟨e, he, h⟩))
  have hifr : Fresh (re j.constvars[k] j.constvars[i]) j.invars := fresh_re hold.1 hnew.1
  have hc : (rdcStep j i k).constvars = j.constvars.eraseIdx k := by
    unfold rdcStep; rw [replaceVar_eq, e1, e2]; exact hcfix
  have hin : (rdcStep j i k).invars = j.invars := by
    unfold rdcStep; rw [replaceVar_eq, e1, e2]; exact hifr.map
  have heq : (rdcStep j i k).eqns = j.eqns.map (substE (re j.constvars[k] j.constvars[i])) := by
    unfold rdcStep; rw [replaceVar_eq, e1, e2]; rfl
  have hou : (rdcStep j i k).outs = j.outs.map (substA (re j.constvars[k] j.constvars[i])) := by
    unfold rdcStep; rw [replaceVar_eq, e1, e2]; rfl
  have hbouts : (j.eqns.map (substE (re j.constvars[k] j.constvars[i]))).flatMap Eqn.outs = j.eqns.flatMap Eqn.outs := by
    rw [List.flatMap_map]
    have : ∀ (l : List (Eqn L P C J)), (∀ e ∈ l, Fresh (re j.constvars[k] j.constvars[i]) e.outs) → l.flatMap (fun a => (substE (re j.constvars[k] j.constvars[i]) a).outs) = l.flatMap Eqn.outs := by
      intro l
      induction l with
      | nil => intro _; rfl
      | cons e l ih =>
        intro h
        rw [List.flatMap_cons, List.flatMap_cons, ih (fun e' he' => h e' (by simp [he']))]
        congr 1
        exact (h e (by simp)).map
    exact this _ hffr
  refine ⟨⟨?_, ?_⟩, hc, hin, by rw [hou]; simp, ⟨_, heq⟩, ?_⟩
  · unfold binders
    rw [hc, hin, heq, hbouts]
    refine honce.sublist ?_
    exact ((List.eraseIdx_sublist _ _).append_right _).append_right _
  · rw [hc, hin, heq]
    refine scoped_subst hffr (fun v hv => ?_) hj.inScope
    rcases List.mem_append.mp hv with hv | hv
    · by_cases hvk : v = j.constvars[k]
      · rw [hvk]
        unfold re
        rw [if_pos rfl]
        refine List.mem_append_left _ ?_
        rw [List.mem_eraseIdx_iff_getElem]
        exact ⟨i, hi, by omega, rfl⟩
      · unfold re
        rw [if_neg hvk]
        refine List.mem_append_left _ ?_
        rw [List.mem_eraseIdx_iff_getElem]
        obtain ⟨a, ha, rfl⟩ := List.getElem_of_mem hv
        exact ⟨a, ha, fun e => hvk (by subst e; rfl), rfl⟩
    · rw [(hifr v hv).1]
      exact List.mem_append_right _ hv
  · intro vals hvl hveq args
    unfold Jaxpr.evalWith
    rw [hc, hin, heq, hou]
    simp only
    have hrel : Rel (re j.constvars[k] j.constvars[i]) (bind (fun _ => S.dflt) j.constvars vals) (bind (fun _ => S.dflt) (j.constvars.eraseIdx k) (vals.eraseIdx k)) := by
      have hother : ∀ v, v ≠ j.constvars[k] → bind (fun _ => S.dflt) j.constvars vals v = bind (fun _ => S.dflt) (j.constvars.eraseIdx k) (vals.eraseIdx k) v := by
        intro v hv
        have a1 := foldl_update (j.constvars.zip vals) (fun _ => S.dflt) (fun _ => S.dflt) (fun w => decide (w ≠ j.constvars[k])) v (by simpa using hv) rfl
        have a2 := foldl_update ((j.constvars.eraseIdx k).zip (vals.eraseIdx k)) (fun _ => S.dflt) (fun _ => S.dflt) (fun w => decide (w ≠ j.constvars[k])) v (by simpa using hv) rfl
        unfold bind
        rw [a1, a2, zip_eraseIdx, filter_eraseIdx]
        intro hk'
        simp
      intro v
      by_cases hv : v = j.constvars[k]
      · subst hv
        unfold re
        rw [if_pos rfl, ← hother _ (Ne.symm hne), bind_getElem hcn hvl.symm _ k hk, bind_getElem hcn hvl.symm _ i hi]
        rw [List.getElem?_eq_getElem (by omega), List.getElem?_eq_getElem (by omega), Option.some.injEq] at hveq
        exact hveq.symm
      · unfold re
        rw [if_neg hv]
        exact hother v hv
    have hrel2 := (hrel.bind hifr args).evals S run hffr
    rw [hifr.map] at hrel2
    exact (hrel2.atoms S j.outs).symm

end E3nn.JX

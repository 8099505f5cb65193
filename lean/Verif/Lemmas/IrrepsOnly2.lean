import Verif.Lemmas.IrrepsOnly
import Verif.Lemmas.RTPOptSpec

/-! # The irreps of the result of activations and gates depend on the irreps of the argument only -/

namespace E3nn

open IArr TP Activ

variable {ι κ : Type}

/-- No term is flagged. -/
def AllSome {α : Type} (P : List (MulIrrep × Chunk α)) : Prop := ∀ q ∈ P, q.2 ≠ none

theorem step_fst {F : ℕ → ℝ → ℝ} {p q : MulIrrep × Chunk (Col ι)} {a : Option ℕ} (h : step F p a = .ok q) : q.1 = outTerm F p.1 a := by
  by_cases hA : Activ.Allowed F p.1 a
  · cases a with
    | none => cases Except.ok.inj h; rfl
    | some a =>
      obtain ⟨hl, hp⟩ := hA
      obtain ⟨m, c⟩ := p
      unfold step at h
      simp only at hl hp h
      rw [if_neg (by simp [hl])] at h
      cases hpar : m.ir.p with
      | e =>
        simp only [hpar, Parity.toInt, reduceCtorEq, if_false] at h
        rw [if_neg (by decide)] at h
        cases Except.ok.inj h
        simp [outTerm, hpar, ofSign]
      | o =>
        simp only [hpar, if_true] at h
        rw [if_neg (hp hpar)] at h
        cases Except.ok.inj h
        simp [outTerm, hpar]
  · rw [step_error hA] at h; cases h

theorem mapM_fst {F : ℕ → ℝ → ℝ} : ∀ {L : List ((MulIrrep × Chunk (Col ι)) × Option ℕ)} {qs}, L.mapM (fun q => step F q.1 q.2) = .ok qs →
    qs.map Prod.fst = L.map fun q => outTerm F q.1.1 q.2 := by
  intro L
  induction L with
  | nil => intro qs h; cases Except.ok.inj h; rfl
  | cons a L ih =>
    intro qs h
    rw [List.mapM_cons] at h
    cases h1 : step F a.1 a.2 with
    | error e => rw [h1] at h; cases h
    | ok q =>
      rw [h1] at h
      cases h2 : L.mapM (fun q => step F q.1 q.2) with
      | error e => simp only [bind, Except.bind, h2] at h; cases h
      | ok qs' =>
        simp only [bind, Except.bind, h2] at h
        cases Except.ok.inj h
        simp only [List.map_cons, step_fst h1, ih h2]

theorem fromChunks_irreps {α : Type} [Zero α] {ms : Irreps} {cs : List (Chunk α)} {y : IArr α} (h : fromChunks ms cs = .ok y) :
    y.irreps = ms ∧ Inv y ∧ y.irreps.zip y.chunks = ms.zip cs := by
  obtain ⟨h1, h2⟩ := fromChunks_shaped h
  obtain ⟨z, z1, z2, z3, -, -, -, z4, -⟩ := fromChunks_pairs (ms.zip cs) h2
  rw [List.map_fst_zip (by omega), List.map_snd_zip (by omega), h] at z1
  cases Except.ok.inj z1
  rw [List.map_fst_zip (by omega)] at z3
  rw [List.map_snd_zip (by omega)] at z4
  exact ⟨z3, z2, by rw [z3, z4]⟩

/-- The irreps of an activated array, whatever its data and flags. -/
theorem activation_irreps (env : ℕ → ℝ → ℝ) (pts : List ℝ) (acts? : Option (List (Option ℕ))) (even odd : ℕ) (nrm : Bool) {x y : IArr (Col ι)}
    (hx : Inv x) (h : scalarActivation env pts acts? even odd nrm x = .ok y) :
    ∀ acts, acts?.getD (defaultActs even odd x.irreps) = acts → x.irreps.length = acts.length ∧ (∀ q ∈ x.irreps.zip acts, Activ.Allowed (effective env pts nrm) q.1 q.2) ∧
      y.irreps = List.zipWith (outTerm (effective env pts nrm)) x.irreps acts := by
  intro acts hacts
  have hl : x.irreps.length = acts.length := by
    by_contra hc
    unfold scalarActivation at h
    simp only [hacts] at h
    rw [if_pos hc] at h
    cases h
  have hA : ∀ q ∈ x.irreps.zip acts, Activ.Allowed (effective env pts nrm) q.1 q.2 := by
    by_contra hc
    rw [activation_error env pts acts even odd nrm acts? hacts hx hl hc] at h
    cases h
  refine ⟨hl, hA, ?_⟩
  unfold scalarActivation at h
  simp only [hacts] at h
  rw [if_neg (by simpa using hl)] at h
  cases hM : ((x.irreps.zip x.chunks).zip acts).mapM (fun q => step (effective env pts nrm) q.1 q.2) with
  | error e =>
    rw [hM] at h; cases h
  | ok qs =>
    have hq : qs.map Prod.fst = List.zipWith (outTerm (effective env pts nrm)) x.irreps acts := by
      rw [mapM_fst hM]
      conv_rhs => rw [← hx.pairs.2.1]
      rw [← map_zip_left, List.zip_map_left, List.map_map]
      rfl
    rw [hM] at h
    simp only [bind, Except.bind] at h
    rw [← hq]
    split at h
    · exact (fromChunks_irreps h).1
    · split at h
      · rw [(make_ok_eq h).1]
      · exact (fromChunks_irreps h).1

/-- Activating an array without flags. -/
theorem act_blind (env : ℕ → ℝ → ℝ) (pts : List ℝ) (acts? : Option (List (Option ℕ))) (even odd : ℕ) (nrm : Bool) {x y : IArr (Col ι)} {u : IArr (Col κ)}
    (hx : Inv x) (hu : Inv u) (he : x.irreps = u.irreps) (hf : AllSome (u.irreps.zip u.chunks))
    (h : scalarActivation env pts acts? even odd nrm x = .ok y) :
    ∃ v, scalarActivation env pts acts? even odd nrm u = .ok v ∧ Inv v ∧ y.irreps = v.irreps := by
  obtain ⟨h1, h2, h3⟩ := activation_irreps env pts acts? even odd nrm hx h _ rfl
  rw [he] at h1 h2 h3
  obtain ⟨v, v1, v2, -, -, v3, -⟩ := activation_spec env pts _ even odd nrm acts? rfl hu h1 h2
    (fun q hq hn => absurd hn (hf _ (List.of_mem_zip hq).1))
  exact ⟨v, v1, v2, by rw [h3, v3]⟩

theorem act_inv (env : ℕ → ℝ → ℝ) (pts : List ℝ) (acts? : Option (List (Option ℕ))) (even odd : ℕ) (nrm : Bool) {x y : IArr (Col ι)}
    (hx : Inv x) (hf : AllSome (x.irreps.zip x.chunks)) (h : scalarActivation env pts acts? even odd nrm x = .ok y) : Inv y := by
  obtain ⟨v, v1, v2, -⟩ := act_blind env pts acts? even odd nrm hx hx rfl hf h
  rw [h] at v1
  cases Except.ok.inj v1
  exact v2

theorem mul_blind {n : IrNorm} (hn : n ≠ .other) {x1 x2 y : IArr (Col ι)} {u1 u2 : IArr (Col κ)} (h1 : Inv x1) (h2 : Inv x2) (k1 : Inv u1) (k2 : Inv u2)
    (e1 : x1.irreps = u1.irreps) (e2 : x2.irreps = u2.irreps) (hy : mulArrays n x1 x2 = .ok y) :
    ∃ v, mulArrays n u1 u2 = .ok v ∧ Inv y ∧ Inv v ∧ y.irreps = v.irreps := by
  unfold mulArrays at hy
  split at hy
  · cases hy
  rename_i hnum
  cases hz : elementwise (realCtx (Col ι)) n none x1 x2 with
  | error e => rw [hz] at hy; cases hy
  | ok z =>
    rw [hz] at hy
    simp only [bind, Except.bind] at hy
    split at hy
    · cases hy
    rename_i hnum'
    cases Except.ok.inj hy
    obtain ⟨v, v1, v2, v3, v4⟩ := el_blind (realCtx_shape _).ok (realCtx_shape (Col κ)).ok hn none h1 h2 k1 k2 e1 e2 hz
    refine ⟨v, ?_, v2, v3, v4⟩
    unfold mulArrays
    rw [if_neg (by rw [← e1, ← e2]; exact hnum), v1]
    simp only [bind, Except.bind]
    rw [if_neg (by rw [← e1, ← v4]; exact hnum')]
    rfl

theorem loop_blind {α β : Type} (a b : ℕ) : ∀ (i : ℕ) (P : List (MulIrrep × Chunk α)) (Q : List (MulIrrep × Chunk β)), P.map Prod.fst = Q.map Prod.fst →
    AllSome P → AllSome Q → ∀ r, sliceByMulLoop a b i P = .ok r → ∃ r', sliceByMulLoop a b i Q = .ok r' ∧ r'.map Prod.fst = r.map Prod.fst ∧
      (∀ q ∈ r, q.2 ≠ none) ∧ ∀ q ∈ r', q.2 ≠ none := by
  intro i P
  induction P generalizing i with
  | nil =>
    intro Q h _ _ r hr
    cases Q with
    | cons => simp at h
    | nil => cases Except.ok.inj hr; exact ⟨[], rfl, rfl, by simp, by simp⟩
  | cons p P ih =>
    intro Q h hP hQ r hr
    cases Q with
    | nil => simp at h
    | cons q Q =>
      obtain ⟨m, c⟩ := p
      obtain ⟨m', c'⟩ := q
      simp only [List.map_cons, List.cons.injEq] at h
      obtain ⟨hm, h⟩ := h
      subst hm
      have hc : c ≠ none := hP (m, c) (by simp)
      have hc' : c' ≠ none := hQ (m, c') (by simp)
      obtain ⟨c, rfl⟩ := Option.ne_none_iff_exists'.mp hc
      obtain ⟨c', rfl⟩ := Option.ne_none_iff_exists'.mp hc'
      have ih := ih (i + m.mul) Q h (fun q hq => hP q (by simp [hq])) (fun q hq => hQ q (by simp [hq]))
      unfold sliceByMulLoop at hr ⊢
      cases hL : sliceByMulLoop a b (i + m.mul) P with
      | error e =>
        exfalso
        rw [hL] at hr
        simp only [bind, Except.bind] at hr
        split at hr
        · cases hr
        · split at hr
          · cases hr
          · cases hr
      | ok t =>
        obtain ⟨t', t1, t2, t3, t4⟩ := ih t hL
        rw [hL] at hr
        rw [t1]
        simp only [bind, Except.bind, pure, Except.pure] at hr ⊢
        split at hr
        · rename_i hcond
          rw [if_pos hcond]
          cases Except.ok.inj hr
          refine ⟨_, rfl, by simp [t2], ?_, ?_⟩
          · intro q hq; rcases List.mem_cons.mp hq with rfl | hq
            · simp
            · exact t3 q hq
          · intro q hq; rcases List.mem_cons.mp hq with rfl | hq
            · simp
            · exact t4 q hq
        · rename_i hcond
          rw [if_neg hcond]
          split at hr
          · rename_i hcond'
            rw [if_pos hcond']
            cases Except.ok.inj hr
            refine ⟨_, rfl, by simp [t2], ?_, ?_⟩
            · intro q hq; rcases List.mem_cons.mp hq with rfl | hq
              · simp
              · exact t3 q hq
            · intro q hq; rcases List.mem_cons.mp hq with rfl | hq
              · simp
              · exact t4 q hq
          · rename_i hcond'
            rw [if_neg hcond']
            cases Except.ok.inj hr
            exact ⟨_, rfl, t2, t3, t4⟩

theorem not_cutNone {α : Type} (a b : ℕ) : ∀ (i : ℕ) (P : List (MulIrrep × Chunk α)), AllSome P → ¬ CutNone a b i P
  | _, [], _ => id
  | i, (m, c) :: P, h => by
    rintro (⟨h1, -⟩ | h1)
    · exact h (m, c) (by simp) h1
    · exact not_cutNone a b _ P (fun q hq => h q (by simp [hq])) h1

theorem slice_blind {α β : Type} [Zero α] [Zero β] {x y : IArr α} {u : IArr β} (hx : Inv x) (hu : Inv u) (he : x.irreps = u.irreps)
    (fx : AllSome (x.irreps.zip x.chunks)) (fu : AllSome (u.irreps.zip u.chunks)) (s : PySlice) (hstep : s.stepIsOne = true)
    (hle : (s.bounds x.irreps.numIrreps).1 ≤ (s.bounds x.irreps.numIrreps).2) (hy : x.sliceByMul s = .ok y) :
    ∃ v, u.sliceByMul s = .ok v ∧ Inv y ∧ Inv v ∧ y.irreps = v.irreps ∧ AllSome (y.irreps.zip y.chunks) ∧ AllSome (v.irreps.zip v.chunks) := by
  have hle' := hle
  rw [he] at hle'
  obtain ⟨v, v1, v2, -⟩ := (sliceByMul_spec hu s hstep hle').1 (not_cutNone _ _ _ _ fu)
  have hv := v1
  refine ⟨v, v1, ?_⟩
  have hst0 : s.step ≠ some 0 := by
    intro h; simp [PySlice.stepIsOne, h] at hstep
  unfold sliceByMul at hy hv
  rw [if_neg hst0, if_pos hstep] at hy hv
  simp only at hy hv
  cases hr : sliceByMulLoop (s.bounds x.irreps.numIrreps).1 (s.bounds x.irreps.numIrreps).2 0 (x.irreps.zip x.chunks) with
  | error e => rw [hr] at hy; cases hy
  | ok r =>
    obtain ⟨r', r1, r2, r3, r4⟩ := loop_blind _ _ 0 _ (u.irreps.zip u.chunks) (by rw [hx.pairs.2.1, hu.pairs.2.1, he]) fx fu r hr
    rw [hr] at hy
    rw [show s.bounds u.irreps.numIrreps = s.bounds x.irreps.numIrreps by rw [he], r1] at hv
    simp only [bind, Except.bind] at hy hv
    rw [r2] at hv
    cases ho : Irreps.ofPairs (r.map Prod.fst) with
    | error e => rw [ho] at hy; cases hy
    | ok ms =>
      rw [ho] at hy hv
      simp only at hy hv
      obtain ⟨a1, a2, a3⟩ := fromChunks_irreps hy
      obtain ⟨b1, b2, b3⟩ := fromChunks_irreps hv
      refine ⟨a2, b2, by rw [a1, b1], ?_, ?_⟩
      · rw [a3]
        intro q hq
        obtain ⟨p, hp, h⟩ := List.mem_map.mp (List.of_mem_zip (a := q.1) (b := q.2) hq).2
        rw [← h]; exact r3 p hp
      · rw [b3]
        intro q hq
        obtain ⟨p, hp, h⟩ := List.mem_map.mp (List.of_mem_zip (a := q.1) (b := q.2) hq).2
        rw [← h]; exact r4 p hp

end E3nn

import Verif.Model.Activation
import Verif.Lemmas.IArrOps
import Verif.Lemmas.Linear

/-! # Lemmas on `scalar_activation` -/

namespace E3nn.Activ

open IArr

variable {ι : Type}

/-- The term of the result for the term `m` with the activation `a`. -/
noncomputable def outTerm (F : ℕ → ℝ → ℝ) (m : MulIrrep) : Option ℕ → MulIrrep
  | none => m
  | some a => ⟨m.mul, ⟨0, match m.ir.p with
    | .e => .e
    | .o => ofSign (parityFunction (F a))⟩⟩

/-- What is done to a component. -/
def applyAct (F : ℕ → ℝ → ℝ) : Option ℕ → Col ι → Col ι
  | none => id
  | some a => lift (F a)

/-- The activation is accepted. -/
def Allowed (F : ℕ → ℝ → ℝ) (m : MulIrrep) : Option ℕ → Prop
  | none => True
  | some a => m.ir.l = 0 ∧ (m.ir.p = .o → parityFunction (F a) ≠ 0)

theorem step_error {F : ℕ → ℝ → ℝ} {p : MulIrrep × Chunk (Col ι)} {a : Option ℕ} (h : ¬ Allowed F p.1 a) :
    step F p a = .error .valueError := by
  cases a with
  | none => exact absurd trivial h
  | some a =>
    simp only [step]
    by_cases hl : p.1.ir.l = 0
    · rw [if_neg (by simp [hl])]
      have : p.1.ir.p = .o ∧ parityFunction (F a) = 0 := by
        by_contra hc
        exact h ⟨hl, fun ho hz => hc ⟨ho, hz⟩⟩
      rw [this.1, this.2]
      simp
    · rw [if_pos hl]

theorem step_ok {F : ℕ → ℝ → ℝ} {p : MulIrrep × Chunk (Col ι)} {a : Option ℕ} (h : Allowed F p.1 a)
    (hz : p.2 = none → ∀ b, a = some b → F b 0 = 0) :
    step F p a = .ok (outTerm F p.1 a, p.2.map fun rows => rows.map fun r => r.map (applyAct F a)) := by
  obtain ⟨m, c⟩ := p
  cases a with
  | none =>
    unfold step outTerm applyAct
    cases c <;> simp
  | some a =>
    obtain ⟨hl, hp⟩ := h
    simp only at hl hp hz
    unfold step
    simp only [hl, ne_eq, not_true_eq_false, if_false]
    cases hpar : m.ir.p with
    | e =>
      simp only [Parity.toInt, outTerm, hpar, reduceCtorEq, if_false]
      rw [if_neg (by decide)]
      cases c with
      | none =>
        have := hz rfl a rfl
        simp [IsZeroInZero, AllClose, this, ofSign]
        norm_num
      | some rows => simp [ofSign, applyAct]
    | o =>
      simp only [outTerm, hpar, if_true]
      rw [if_neg (hp hpar)]
      cases c with
      | none =>
        have := hz rfl a rfl
        simp [IsZeroInZero, AllClose, this]
        norm_num
      | some rows => simp [applyAct]

theorem outTerm_dim {F : ℕ → ℝ → ℝ} {m : MulIrrep} {a : Option ℕ} (h : Allowed F m a) :
    (outTerm F m a).mul = m.mul ∧ (outTerm F m a).ir.dim = m.ir.dim ∧ (outTerm F m a).ir.l = m.ir.l ∧ (outTerm F m a).dim = m.dim := by
  cases a with
  | none => exact ⟨rfl, rfl, rfl, rfl⟩
  | some a =>
    have hl := h.1
    simp [outTerm, Irrep.dim, MulIrrep.dim, hl]

theorem step_shape {F : ℕ → ℝ → ℝ} {p : MulIrrep × Chunk (Col ι)} {a : Option ℕ} (h : Allowed F p.1 a)
    (hs : shapeOk p.1 p.2 = true) :
    shapeOk (outTerm F p.1 a) (p.2.map fun rows => rows.map fun r => r.map (applyAct F a)) = true := by
  obtain ⟨m, c⟩ := p
  cases c with
  | none => rfl
  | some rows =>
    simp only [shapeOk, Bool.and_eq_true, beq_iff_eq, List.all_eq_true] at hs
    simp only [shapeOk, Option.map_some, Bool.and_eq_true, beq_iff_eq, List.all_eq_true, List.length_map, List.mem_map]
    refine ⟨by rw [(outTerm_dim h).1]; exact hs.1, ?_⟩
    rintro r ⟨r', hr', rfl⟩
    rw [List.length_map, (outTerm_dim h).2.1]
    exact hs.2 r' hr'

theorem applyAct_zero {F : ℕ → ℝ → ℝ} {a : Option ℕ} (hz : ∀ b, a = some b → F b 0 = 0) : applyAct F a (0 : Col ι) = 0 := by
  cases a with
  | none => rfl
  | some a => funext i; exact hz a rfl

theorem step_flat {F : ℕ → ℝ → ℝ} {p : MulIrrep × Chunk (Col ι)} {a : Option ℕ} (h : Allowed F p.1 a)
    (hz : p.2 = none → ∀ b, a = some b → F b 0 = 0) :
    flatChunk (outTerm F p.1 a) (p.2.map fun rows => rows.map fun r => r.map (applyAct F a)) =
      (flatChunk p.1 p.2).map (applyAct F a) := by
  obtain ⟨m, c⟩ := p
  cases c with
  | none =>
    simp only [flatChunk, Option.map_none, List.map_replicate, (outTerm_dim h).2.2.2]
    rw [applyAct_zero (hz rfl)]
  | some rows =>
    simp only [flatChunk, Option.map_some, List.map_flatten]

/-- What one turn of the loop yields. -/
noncomputable def stepVal (F : ℕ → ℝ → ℝ) (q : (MulIrrep × Chunk (Col ι)) × Option ℕ) : MulIrrep × Chunk (Col ι) :=
  (outTerm F q.1.1 q.2, q.1.2.map fun rows => rows.map fun r => r.map (applyAct F q.2))

theorem map_zip_left {β γ δ : Type} (f : β → γ → δ) (l : List β) (k : List γ) : (l.zip k).map (fun q => f q.1 q.2) = List.zipWith f l k := by
  rw [List.zip_eq_zipWith, List.map_zipWith]

theorem mapM_error {β γ : Type} {f : β → Except PyErr γ} {e : PyErr} (l : List β) (h : ∀ a ∈ l, (∃ b, f a = .ok b) ∨ f a = .error e)
    (hb : ∃ a ∈ l, f a = .error e) : l.mapM f = .error e := by
  induction l with
  | nil => obtain ⟨a, ha, -⟩ := hb; simp at ha
  | cons a l ih =>
    rw [List.mapM_cons]
    rcases h a (by simp) with ⟨b, h1⟩ | h1
    · rw [h1]
      have : l.mapM f = .error e := by
        apply ih fun c hc => h c (by simp [hc])
        obtain ⟨c, hc, h2⟩ := hb
        rcases List.mem_cons.mp hc with rfl | hc
        · rw [h1] at h2; cases h2
        · exact ⟨c, hc, h2⟩
      simp only [bind, Except.bind]
      rw [this]
    · rw [h1]; rfl

theorem activation_spec (env : ℕ → ℝ → ℝ) (pts : List ℝ) (acts : List (Option ℕ)) (even odd : ℕ) (nrm : Bool) {x : IArr (Col ι)}
    (acts? : Option (List (Option ℕ))) (ha : acts?.getD (defaultActs even odd x.irreps) = acts)
    (hx : Inv x) (hl : x.irreps.length = acts.length)
    (hA : ∀ q ∈ x.irreps.zip acts, Allowed (effective env pts nrm) q.1 q.2)
    (hZ : ∀ q ∈ (x.irreps.zip x.chunks).zip acts, q.1.2 = none → ∀ b, q.2 = some b → effective env pts nrm b 0 = 0) :
    ∃ y, scalarActivation env pts acts? even odd nrm x = .ok y ∧ Inv y ∧
      y.irreps.zip y.chunks = ((x.irreps.zip x.chunks).zip acts).map (stepVal (effective env pts nrm)) ∧
      y.terms = List.zipWith (fun t a => (outTerm (effective env pts nrm) t.1 a, t.2.map (applyAct (effective env pts nrm) a))) x.terms acts ∧
      y.irreps = List.zipWith (outTerm (effective env pts nrm)) x.irreps acts ∧ y.zeroFlags = x.zeroFlags := by
  set F := effective env pts nrm with hF
  set qs := ((x.irreps.zip x.chunks).zip acts).map (stepVal F) with hqs
  have hp := hx.pairs
  have hlen : (x.irreps.zip x.chunks).length = acts.length := by
    rw [← hl, ← congrArg List.length hp.2.1, List.length_map]
  have hall : ∀ q ∈ (x.irreps.zip x.chunks).zip acts, Allowed F q.1.1 q.2 := by
    intro q hq
    refine hA (q.1.1, q.2) ?_
    have : (x.irreps.zip acts) = (((x.irreps.zip x.chunks).zip acts).map fun q => (q.1.1, q.2)) := by
      conv_lhs => rw [← hp.2.1]
      rw [List.zip_map_left]
      rfl
    rw [this]
    exact List.mem_map.mpr ⟨q, hq, rfl⟩
  have hM : ((x.irreps.zip x.chunks).zip acts).mapM (fun q => step F q.1 q.2) = .ok qs :=
    FLin.mapM_ok _ fun q hq => step_ok (hall q hq) (hZ q hq)
  have hs : Shaped qs := by
    intro q hq
    obtain ⟨p, h1, rfl⟩ := List.mem_map.mp hq
    exact step_shape (hall p h1) (hp.1 _ (List.of_mem_zip h1).1)
  have htm : qs.map tm = List.zipWith (fun t a => (outTerm F t.1 a, t.2.map (applyAct F a))) x.terms acts := by
    rw [hqs, ← hp.2.2.2.1, ← map_zip_left, List.zip_map_left, List.map_map, List.map_map]
    apply List.map_congr_left
    intro q hq
    simp only [Function.comp, tm, stepVal, Prod.map, id]
    rw [step_flat (hall q hq) (hZ q hq)]
  have hirr : qs.map Prod.fst = List.zipWith (outTerm F) x.irreps acts := by
    conv_rhs => rw [← hp.2.1]
    rw [hqs, ← map_zip_left, List.zip_map_left, List.map_map, List.map_map]
    rfl
  have hfl : qs.map (fun q => q.2.isNone) = x.zeroFlags := by
    rw [← hp.2.2.2.2.1, hqs, List.map_map]
    have : (x.irreps.zip x.chunks).map (fun p => p.2.isNone) = (((x.irreps.zip x.chunks).zip acts).map Prod.fst).map (fun p => p.2.isNone) := by
      rw [List.map_fst_zip (by omega)]
    rw [this, List.map_map]
    apply List.map_congr_left
    intro q _
    simp [stepVal]
  obtain ⟨z, z1, z2, z3, z4, z5, z6, z7, -⟩ := fromChunks_pairs qs hs
  have slow : ∃ y, fromChunks (qs.map Prod.fst) (qs.map Prod.snd) = .ok y ∧ Inv y ∧ y.irreps.zip y.chunks = qs ∧
      y.terms = List.zipWith (fun t a => (outTerm F t.1 a, t.2.map (applyAct F a))) x.terms acts ∧
      y.irreps = List.zipWith (outTerm F) x.irreps acts ∧ y.zeroFlags = x.zeroFlags :=
    ⟨z, z1, z2, by rw [z3, z7, List.zip_map']; simp, by rw [z4, htm], by rw [z3, hirr], by rw [z6, hfl]⟩
  have fast : ∀ a, (∀ b ∈ acts, b = a) → ∃ y, make (qs.map Prod.fst) (x.array.map (applyAct F a)) (some (qs.map fun q => q.2.isNone)) none = .ok y ∧ Inv y ∧
      y.irreps.zip y.chunks = qs ∧
      y.terms = List.zipWith (fun t a => (outTerm F t.1 a, t.2.map (applyAct F a))) x.terms acts ∧
      y.irreps = List.zipWith (outTerm F) x.irreps acts ∧ y.zeroFlags = x.zeroFlags := by
    intro a ha'
    have harr : x.array.map (applyAct F a) = (qs.map fun p => flatChunk p.1 p.2).flatten := by
      rw [← hp.2.2.2.2.2, List.map_flatten, List.map_map, hqs, List.map_map]
      congr 1
      have : (x.irreps.zip x.chunks) = ((x.irreps.zip x.chunks).zip acts).map Prod.fst := by
        rw [List.map_fst_zip (by omega)]
      conv_lhs => rw [this]
      rw [List.map_map]
      apply List.map_congr_left
      intro q hq
      have hqa : q.2 = a := ha' _ (List.of_mem_zip hq).2
      simp only [Function.comp, stepVal]
      rw [step_flat (hall q hq) (hZ q hq), hqa]
    obtain ⟨s1, s2, s3⟩ := pairs_spec qs hs
    rw [← harr] at s1 s2 s3
    refine ⟨_, make_nocache s1, inv_nocache s1, ?_, ?_, ?_, ?_⟩
    · rw [(inv_nocache s1).chunks_eq]
      show (qs.map Prod.fst).zip (comp (qs.map Prod.fst) (x.array.map (applyAct F a)) (qs.map fun p => p.2.isNone)) = _
      rw [s2, List.zip_map']; simp
    · show termsOf (qs.map Prod.fst) (x.array.map (applyAct F a)) = _
      rw [s3, htm]
    · exact hirr
    · exact hfl
  unfold scalarActivation
  simp only [ha]
  rw [if_neg (by simpa using hl)]
  rw [← hF, hM]
  simp only [bind, Except.bind]
  cases hacts : acts with
  | nil => rw [hacts] at slow; exact slow
  | cons a as =>
    simp only
    rw [hacts] at slow fast
    split
    · rename_i hc
      have hc' : ∀ b ∈ a :: as, a = b := List.count_eq_length.mp hc
      have := fast a fun b hb => (hc' b hb).symm
      cases a with
      | none => simpa [applyAct] using this
      | some a => exact this
    · exact slow

/-- If an activation is not accepted, `ValueError`. -/
theorem activation_error (env : ℕ → ℝ → ℝ) (pts : List ℝ) (acts : List (Option ℕ)) (even odd : ℕ) (nrm : Bool) {x : IArr (Col ι)}
    (acts? : Option (List (Option ℕ))) (ha : acts?.getD (defaultActs even odd x.irreps) = acts)
    (hx : Inv x) (hl : x.irreps.length = acts.length)
    (hA : ¬ ∀ q ∈ x.irreps.zip acts, Allowed (effective env pts nrm) q.1 q.2) :
    scalarActivation env pts acts? even odd nrm x = .error .valueError := by
  have hp := hx.pairs
  unfold scalarActivation
  simp only [ha]
  rw [if_neg (by simpa using hl)]
  have : ((x.irreps.zip x.chunks).zip acts).mapM (fun q => step (effective env pts nrm) q.1 q.2) = .error .valueError := by
    apply mapM_error
    · intro q _
      by_cases h : Allowed (effective env pts nrm) q.1.1 q.2
      · left
        obtain ⟨⟨m, c⟩, a⟩ := q
        cases a with
        | none => exact ⟨_, rfl⟩
        | some a =>
          obtain ⟨h1, h2⟩ := h
          simp only at h1 h2
          unfold step
          simp only [h1, ne_eq, not_true_eq_false, if_false]
          cases hpar : m.ir.p with
          | e => exact ⟨_, by rw [if_neg (by simp [Parity.toInt])]⟩
          | o => exact ⟨_, by simp only [if_true]; rw [if_neg (h2 hpar)]⟩
      · right; exact step_error h
    · by_contra hc
      apply hA
      intro q hq
      by_contra hq'
      apply hc
      have e : (x.irreps.zip acts) = (((x.irreps.zip x.chunks).zip acts).map fun q => (q.1.1, q.2)) := by
        conv_lhs => rw [← hp.2.1]
        rw [List.zip_map_left]
        rfl
      rw [e] at hq
      obtain ⟨p, h1, rfl⟩ := List.mem_map.mp hq
      exact ⟨p, h1, step_error hq'⟩
  simp only [this, bind, Except.bind]

end E3nn.Activ

import Verif.Lemmas.Activation
import Verif.Lemmas.TransformO3
import Verif.Props.C39

/-! # `scalar_activation` and `norm_activation` commute with O(3) -/

namespace E3nn.Activ

open IArr Matrix E3nn.Rot E3nn.Wig

variable {ι : Type}

/-- The action of `R` on the rows of an irrep. -/
noncomputable abbrev DR (R : Matrix (Fin 3) (Fin 3) ℝ) : Irrep → List (Col ι) → List (Col ι) :=
  fun ir => matVec (α := Col ι) (matRows (Wig.dMatrix ir R))

theorem act_DR (R : Matrix (Fin 3) (Fin 3) ℝ) : Act (DR (ι := ι) R) := Act_matRows fun ir => Wig.dMatrix ir R

/-- The sign by which `R` acts on a scalar of parity `p`. -/
noncomputable def scalarSign (R : Matrix (Fin 3) (Fin 3) ℝ) : Parity → ℝ
  | .e => 1
  | .o => R.det

theorem dMatrix_scalar {R : Matrix (Fin 3) (Fin 3) ℝ} (hR : IsOrth R) (p : Parity) :
    Wig.dMatrix ⟨0, p⟩ R = scalarSign R p • 1 := by
  obtain ⟨-, -, h1, h2⟩ := C39_defining hR
  cases p with
  | e => rw [h1]; simp [scalarSign]
  | o => rw [h2]; rfl

theorem DR_scalar {R : Matrix (Fin 3) (Fin 3) ℝ} (hR : IsOrth R) (p : Parity) (v : Col ι) :
    DR R ⟨0, p⟩ [v] = [scalarSign R p • v] := by
  show matVec (matRows (Wig.dMatrix ⟨0, p⟩ R)) [v] = _
  rw [dMatrix_scalar hR]
  have : [v] = List.ofFn (fun _ : Fin 1 => v) := by simp
  rw [this]
  have e := matVec_ofFn (α := Col ι) (m := 1) (n := 1) (scalarSign R p • (1 : Matrix (Fin 1) (Fin 1) ℝ)) (fun _ => v)
  refine e.trans ?_
  simp [Matrix.smul_apply]

theorem scalarSign_cases {R : Matrix (Fin 3) (Fin 3) ℝ} (hR : IsOrth R) (p : Parity) : scalarSign R p = 1 ∨ scalarSign R p = -1 := by
  cases p with
  | e => left; rfl
  | o => exact hR.det_cases

/-- `F` is exactly even (`1`) or odd (`-1`). -/
def HasParity (F : ℝ → ℝ) (p : ℤ) : Prop := ∀ t, F (-t) = p * F t

theorem lift_sign {F : ℝ → ℝ} {R : Matrix (Fin 3) (Fin 3) ℝ} (hR : IsOrth R) {m : MulIrrep} (h : m.ir.p = .o → HasParity F (parityFunction F))
    (hp : m.ir.p = .o → parityFunction F = 1 ∨ parityFunction F = -1) (v : Col ι) :
    lift F (scalarSign R m.ir.p • v) =
      scalarSign R (match m.ir.p with | .e => .e | .o => ofSign (parityFunction F)) • lift F v := by
  cases hpar : m.ir.p with
  | e => funext i; simp [scalarSign, lift]
  | o =>
    have hP := h hpar
    rcases hR.det_cases with e | e <;> rcases hp hpar with q | q <;> rw [q] at hP ⊢ <;>
      funext i <;> simp [scalarSign, ofSign, e, lift, hP (v i)]

theorem parityFunction_vals (F : ℝ → ℝ) : parityFunction F = 1 ∨ parityFunction F = -1 ∨ parityFunction F = 0 := by
  unfold parityFunction
  split <;> [left; (split <;> [(right; left); (right; right)])] <;> rfl

theorem stepVal_T {F : ℕ → ℝ → ℝ} {R : Matrix (Fin 3) (Fin 3) ℝ} (hR : IsOrth R) {p : MulIrrep × Chunk (Col ι)} {a : Option ℕ}
    (h : Allowed F p.1 a) (hs : shapeOk p.1 p.2 = true)
    (hP : ∀ b, a = some b → p.1.ir.p = .o → HasParity (F b) (parityFunction (F b))) :
    stepVal F (T (DR R) p, a) = T (DR R) (stepVal F (p, a)) := by
  obtain ⟨⟨mul, l, par⟩, c⟩ := p
  cases a with
  | none =>
    cases c <;> simp [stepVal, T, outTerm, actRows, applyAct]
  | some a =>
    obtain ⟨hl, hp⟩ := h
    simp only at hl
    subst hl
    cases c with
    | none => simp [stepVal, T, outTerm, actRows]
    | some rows =>
      simp only [shapeOk, Bool.and_eq_true, beq_iff_eq, List.all_eq_true] at hs
      simp only [stepVal, T, outTerm, actRows, Option.map_some, List.map_map, Prod.mk.injEq, true_and]
      congr 1
      apply List.map_congr_left
      intro r hr
      have h1 := hs.2 r hr
      obtain ⟨v, rfl⟩ := List.length_eq_one_iff.mp h1
      simp only [Function.comp, List.map_cons, List.map_nil, applyAct]
      rw [DR_scalar hR, DR_scalar hR]
      simp only [List.map_cons, List.map_nil]
      congr 1
      exact lift_sign (m := ⟨mul, 0, par⟩) hR (hP a rfl) (fun ho => by
        rcases parityFunction_vals (F a) with e | e | e
        · exact .inl e
        · exact .inr e
        · exact absurd e (hp ho)) v

theorem tr_scalarActivation (env : ℕ → ℝ → ℝ) (pts : List ℝ) (acts : List (Option ℕ)) (even odd : ℕ) (nrm : Bool) {x x' : IArr (Col ι)}
    {R : Matrix (Fin 3) (Fin 3) ℝ} (hR : IsOrth R) (h : Tr (DR R) x x')
    (acts? : Option (List (Option ℕ))) (ha : acts?.getD (defaultActs even odd x.irreps) = acts)
    (hl : x.irreps.length = acts.length)
    (hA : ∀ q ∈ x.irreps.zip acts, Allowed (effective env pts nrm) q.1 q.2)
    (hZ : ∀ q ∈ (x.irreps.zip x.chunks).zip acts, q.1.2 = none → ∀ b, q.2 = some b → effective env pts nrm b 0 = 0)
    (hP : ∀ q ∈ x.irreps.zip acts, ∀ b, q.2 = some b → q.1.ir.p = .o → HasParity (effective env pts nrm b) (parityFunction (effective env pts nrm b))) :
    ∃ y y', scalarActivation env pts acts? even odd nrm x = .ok y ∧ scalarActivation env pts acts? even odd nrm x' = .ok y' ∧ Tr (DR R) y y' := by
  obtain ⟨y, y1, y2, y3, -⟩ := activation_spec env pts acts even odd nrm acts? ha h.inv hl hA hZ
  have hZ' : ∀ q ∈ (x'.irreps.zip x'.chunks).zip acts, q.1.2 = none → ∀ b, q.2 = some b → effective env pts nrm b 0 = 0 := by
    intro q hq hn b hb
    rw [h.pairs, List.zip_map_left] at hq
    obtain ⟨p, hp, rfl⟩ := List.mem_map.mp hq
    refine hZ p hp ?_ b hb
    obtain ⟨⟨m, c⟩, a⟩ := p
    cases c with
    | none => rfl
    | some c => simp [T, actRows] at hn
  obtain ⟨y', z1, z2, z3, -⟩ := activation_spec env pts acts even odd nrm (x := x') acts? (by rw [h.irreps]; exact ha) h.inv' (by rw [h.irreps]; exact hl)
    (by rw [h.irreps]; exact hA) hZ'
  refine ⟨y, y', y1, z1, y2, z2, ?_⟩
  rw [z3, y3, h.pairs, List.zip_map_left, List.map_map, List.map_map]
  apply List.map_congr_left
  intro q hq
  have hm : (q.1.1, q.2) ∈ x.irreps.zip acts := by
    have : (x.irreps.zip acts) = (((x.irreps.zip x.chunks).zip acts).map fun q => (q.1.1, q.2)) := by
      conv_lhs => rw [← h.inv.pairs.2.1]
      rw [List.zip_map_left]
      rfl
    rw [this]
    exact List.mem_map.mpr ⟨q, hq, rfl⟩
  exact stepVal_T hR (hA _ hm) (h.inv.pairs.1 _ (List.of_mem_zip hq).1) (hP _ hm)

end E3nn.Activ

namespace E3nn.Activ

open IArr Matrix E3nn.Rot E3nn.Wig

variable {ι : Type}

/-- The sum of squares of a row at the leading index `i`. -/
def sumSq (r : List (Col ι)) (i : ι) : ℝ := (r.map fun v => v i ^ 2).sum

theorem sumSq_ofFn {n : ℕ} (v : Fin n → Col ι) (i : ι) : sumSq (List.ofFn v) i = ∑ k, v k i ^ 2 := by
  unfold sumSq
  rw [List.map_ofFn, List.sum_ofFn]
  rfl

theorem orth_dot {n : ℕ} {M : Matrix (Fin n) (Fin n) ℝ} (h : M * Mᵀ = 1) (v w : Fin n → ℝ) :
    ∑ k, (∑ j, M k j * v j) * (∑ j, M k j * w j) = ∑ k, v k * w k := by
  have h' : Mᵀ * M = 1 := mul_eq_one_comm.mp h
  have : (M.mulVec v) ⬝ᵥ (M.mulVec w) = v ⬝ᵥ w := by
    rw [Matrix.dotProduct_mulVec, ← Matrix.mulVec_transpose, Matrix.mulVec_mulVec, h', Matrix.one_mulVec]
  exact this

theorem sumSq_DR {R : Matrix (Fin 3) (Fin 3) ℝ} (hR : IsOrth R) (ir : Irrep) {r : List (Col ι)} (hr : r.length = 2 * ir.l + 1) (i : ι) :
    sumSq (DR R ir r) i = sumSq r i := by
  obtain ⟨v, rfl⟩ := exists_ofFn hr
  show sumSq (matVec (matRows (Wig.dMatrix ir R)) (List.ofFn v)) i = _
  rw [matVec_ofFn, sumSq_ofFn, sumSq_ofFn]
  have := orth_dot (C39_orthogonal ir hR).1 (fun k => v k i) (fun k => v k i)
  simp only [← pow_two] at this
  rw [← this]
  refine Finset.sum_congr rfl fun k _ => ?_
  congr 1
  simp [Finset.sum_apply]

/-- `norm_activation` on a row, as an operation on the rows. -/
noncomputable def normG (env : ℕ → ℝ → ℝ) (comp : Bool) (a : Option ℕ) : Irrep → List (Col ι) → List (Col ι) :=
  fun _ r => match a with
    | none => r
    | some a => normRow comp (env a) r

theorem normRow_zero (comp : Bool) (phi : ℝ → ℝ) (n : ℕ) : normRow comp phi (List.replicate n (0 : Col ι)) = List.replicate n 0 := by
  unfold normRow
  rw [List.map_replicate]
  congr 1
  funext i
  simp

theorem normG_act (env : ℕ → ℝ → ℝ) (comp : Bool) (a : Option ℕ) : Act (normG (ι := ι) env comp a) := by
  cases a with
  | none => exact ⟨fun _ _ h => h, fun _ => rfl⟩
  | some a => exact ⟨fun _ _ h => by simpa [normG, normRow] using h, fun _ => normRow_zero _ _ _⟩

theorem rowNorm_eq (comp : Bool) (r : List (Col ι)) (i : ι) : rowNorm comp r i =
    if 0 < (if comp then sumSq r i / r.length else sumSq r i) then Real.sqrt (if comp then sumSq r i / r.length else sumSq r i) else 1 := rfl

theorem normG_DR (env : ℕ → ℝ → ℝ) (comp : Bool) (a : Option ℕ) {R : Matrix (Fin 3) (Fin 3) ℝ} (hR : IsOrth R) (ir : Irrep) {r : List (Col ι)}
    (hr : r.length = ir.dim) : normG env comp a ir (DR R ir r) = DR R ir (normG env comp a ir r) := by
  cases a with
  | none => rfl
  | some a =>
    have hl : (DR R ir r).length = r.length := by rw [(act_DR R).len ir r hr, hr]
    have hn : rowNorm comp (DR R ir r) = rowNorm comp r := by
      funext i
      rw [rowNorm_eq, rowNorm_eq, sumSq_DR hR ir hr, hl]
    simp only [normG, normRow]
    rw [hn]
    obtain ⟨v, rfl⟩ := exists_ofFn (show r.length = 2 * ir.l + 1 from hr)
    show (matVec (matRows (Wig.dMatrix ir R)) (List.ofFn v)).map _ = matVec (matRows (Wig.dMatrix ir R)) ((List.ofFn v).map _)
    rw [List.map_ofFn, matVec_ofFn, matVec_ofFn, List.map_ofFn]
    congr 1
    funext k i
    simp only [Function.comp, Finset.sum_apply, Pi.smul_apply, smul_eq_mul]
    rw [Finset.sum_mul]
    exact Finset.sum_congr rfl fun j _ => by ring

theorem normActivation_eq (env : ℕ → ℝ → ℝ) (acts : List (Option ℕ)) (comp : Bool) {x : IArr (Col ι)} (hx : Inv x) (hl : x.irreps.length = acts.length) :
    normActivation env acts comp x =
      fromChunks x.irreps (((x.irreps.zip x.chunks).zip acts).map fun q => actRows (normG env comp q.2) q.1) := by
  unfold normActivation
  rw [if_neg (by simpa using hl)]
  congr 1
  have e : x.chunks.zip acts = ((x.irreps.zip x.chunks).zip acts).map fun q => (q.1.2, q.2) := by
    conv_lhs => rw [← hx.pairs.2.2.1]
    rw [List.zip_map_left]; rfl
  rw [e, List.map_map]
  apply List.map_congr_left
  rintro ⟨⟨m, c⟩, a⟩ _
  cases a with
  | none =>
    cases c with
    | none => rfl
    | some c => exact congrArg some (List.map_id _).symm
  | some a => cases c <;> rfl

end E3nn.Activ

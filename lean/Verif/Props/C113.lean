import Verif.Model.Pow
import Verif.Props.C59
import Verif.Props.C04_C11

/-!
# C113: powers
-/

namespace E3nn.Pow

open E3nn.IArr E3nn.Wig

variable {ι : Type}

theorem comp_congr {α : Type} {u v : Irreps} (h : u.map (fun m => (m.mul, m.ir.dim)) = v.map fun m => (m.mul, m.ir.dim)) (a : List α) (zs : List Bool) : comp u a zs = comp v a zs := by
  induction u generalizing v a zs with
  | nil => cases v with
    | nil => rfl
    | cons => simp at h
  | cons m u ih => cases v with
    | nil => simp at h
    | cons n v =>
      simp only [List.map_cons, List.cons.injEq, Prod.mk.injEq] at h
      have hd : m.dim = n.dim := by unfold MulIrrep.dim; rw [h.1.1, h.1.2]
      cases zs with
      | nil => rfl
      | cons z zs => simp only [comp, h.1.1, h.1.2, hd, ih h.2]

theorem comp_none {α : Type} {u : Irreps} {a : List α} {zs : List Bool} (h : zs.length = u.length) : none ∈ comp u a zs ↔ true ∈ zs := by
  induction u generalizing a zs with
  | nil => cases zs with
    | nil => simp [comp]
    | cons => simp at h
  | cons m u ih => cases zs with
    | nil => simp at h
    | cons z zs =>
      simp only [comp, List.mem_cons, ih (by simpa using h)]
      cases z <;> simp

theorem dim_congr {u v : Irreps} (h : u.map (fun m => (m.mul, m.ir.dim)) = v.map fun m => (m.mul, m.ir.dim)) : u.dim = v.dim ∧ u.length = v.length := by
  constructor
  · have := congrArg (fun l : List (ℕ × ℕ) => (l.map fun p => p.1 * p.2).sum) h
    simpa [Irreps.dim, List.map_map, Function.comp_def] using this
  · simpa using congrArg List.length h

/-- What the constructor is given by `__pow__`. -/
theorem make_pow {irr : Irreps} {x : IArr (ι → ℝ)} (hx : x.Coherent) (f : (ι → ℝ) → ι → ℝ) (h : irr.map (fun m => (m.mul, m.ir.dim)) = x.irreps.map fun m => (m.mul, m.ir.dim)) :
    ∃ y, make irr (x.array.map f) none (mapChunks f x.chunks?) = .ok y ∧ y.irreps = irr ∧ y.array = x.array.map f ∧
      (y.Coherent ↔ ∀ cs, x.chunks? = some cs → none ∉ cs) := by
  have hi := hx.inv
  obtain ⟨hl1, hl2⟩ := hi.flags.lengths
  obtain ⟨d1, d2⟩ := dim_congr h
  have hal : (x.array.map f).length = irr.dim := by rw [List.length_map, hl1, d1]
  cases hc : x.chunks? with
  | none =>
    obtain ⟨m1, m2⟩ := make_noflags hal
    refine ⟨_, m1, rfl, rfl, ?_⟩
    exact Iff.intro (fun _ cs h => by simp at h) (fun _ => m2.coherent)
  | some cs =>
    have hcs := hi.cache cs hc
    subst hcs
    simp only [mapChunks, Option.map_some]
    rw [← IArr.comp_map, ← comp_congr h]
    have h3 := comp_shapes (zs := x.zeroFlags) hal
    have h4 := comp_length (ms := irr) (a := x.array.map f) (zs := x.zeroFlags) (by rw [hl2, d2])
    refine ⟨⟨irr, x.array.map f, none, some (comp irr (x.array.map f) x.zeroFlags)⟩, ?_, rfl, rfl, ?_⟩
    · simp only [make, h3, h4, hal]; simp
    · have hn : ∀ a : List (ι → ℝ), none ∈ comp x.irreps a x.zeroFlags ↔ true ∈ x.zeroFlags := fun a => comp_none hl2
      constructor
      · intro hy cs hcs
        cases Option.some.inj hcs
        rw [hn]
        have := hy.inv.cache _ rfl
        intro ht
        have h5 : none ∈ comp irr (x.array.map f) x.zeroFlags := (comp_none (by rw [hl2, d2])).2 ht
        rw [this, comp_none (by simp [IArr.zeroFlags])] at h5
        simp [IArr.zeroFlags] at h5
      · intro h0
        have h1 := h0 _ rfl
        rw [hn] at h1
        have hz : x.zeroFlags = List.replicate irr.length false := by
          rw [d2, ← hl2]
          apply List.eq_replicate_of_mem
          intro b hb
          cases b with
          | false => rfl
          | true => exact absurd hb h1
        refine Inv.coherent ⟨flagsOk_false _ _ hal, ?_⟩
        intro cs hcs
        cases Option.some.inj hcs
        rw [hz]; rfl

/-- **C113 (values).** On scalars `x ** n` takes the power of every component; odd scalars become even ones when `n` is even. The result keeps its views truthful
exactly when no chunk `None` was cached. -/
theorem C113_pow (n : ℤ) (x : IArr (ι → ℝ)) (hx : x.Coherent) (h0 : ∀ m ∈ x.irreps, m.ir.l = 0) (hne : expand x.irreps ≠ [] ∨ ∀ m ∈ x.irreps, m.ir = ⟨0, .e⟩) :
    ∃ y, powInt n x = .ok y ∧ y.array = (x.array.map fun v i => v i ^ n) ∧
      y.irreps = x.irreps.map (fun m => ⟨m.mul, ⟨0, if n % 2 = 0 then .e else m.ir.p⟩⟩) ∧
      (y.Coherent ↔ ∀ cs, x.chunks? = some cs → none ∉ cs) := by
  have hir : ∀ m ∈ x.irreps, m.ir = ⟨0, m.ir.p⟩ := by
    intro m hm
    have := h0 m hm
    cases hmi : m.ir
    rw [hmi] at this
    simp only at this
    rw [this]
  have key : ∀ irr : Irreps, irr = x.irreps.map (fun m => ⟨m.mul, ⟨0, if n % 2 = 0 then .e else m.ir.p⟩⟩) →
      ∃ y, make irr (x.array.map fun v => v ^ n) none (mapChunks (fun v => v ^ n) x.chunks?) = .ok y ∧ y.array = (x.array.map fun v i => v i ^ n) ∧
      y.irreps = x.irreps.map (fun m => ⟨m.mul, ⟨0, if n % 2 = 0 then .e else m.ir.p⟩⟩) ∧ (y.Coherent ↔ ∀ cs, x.chunks? = some cs → none ∉ cs) := by
    intro irr hirr
    obtain ⟨y, y1, y2, y3, y4⟩ := make_pow (irr := irr) hx (fun v => v ^ n) (by
      rw [hirr, List.map_map]
      apply List.map_congr_left
      intro m hm
      rw [Function.comp_apply]
      dsimp only
      conv_rhs => rw [hir m hm]
      rfl)
    exact ⟨y, y1, y3, y2.trans hirr, y4⟩
  unfold powInt
  split
  · rename_i hall
    simp only [List.all_eq_true, beq_iff_eq] at hall
    refine key _ ?_
    conv_lhs => rw [← List.map_id x.irreps]
    apply List.map_congr_left
    intro m hm
    have := hall m hm
    cases m with
    | mk mul ir =>
      dsimp only at this ⊢
      subst this
      simp
  · rename_i hall
    have hL := C11_lmax x.irreps
    cases hl : x.irreps.lmax with
    | error e =>
      exfalso
      have he : e = .valueError := by
        unfold Irreps.lmax at hl
        split at hl
        · exact (Except.error.inj hl).symm
        · split at hl
          · cases hl
          · exact (Except.error.inj hl).symm
      subst he
      rcases hne with h | h
      · exact h (hL.1.mp hl)
      · apply hall
        simp only [List.all_eq_true, beq_iff_eq]
        exact h
    | ok L =>
      obtain ⟨⟨ir, g1, g2⟩, -⟩ := hL.2 L hl
      have hL0 : L = 0 := by
        rw [← g2]
        unfold expand at g1
        simp only [List.mem_flatMap, List.mem_replicate] at g1
        obtain ⟨m, hm, -, rfl⟩ := g1
        exact h0 m hm
      dsimp only
      rw [if_pos hL0]
      apply key
      split
      · rfl
      · conv_lhs => rw [← List.map_id x.irreps]
        apply List.map_congr_left
        intro m hm
        have := hir m hm
        cases m with
        | mk mul ir => dsimp only at this ⊢; rw [id, ← this]

/-- **C113 (refusals).** With an irrep of positive degree every power is refused, and so is a non-integer power of an odd scalar. -/
theorem C113_refused (x : IArr (ι → ℝ)) :
    ((∃ ir ∈ expand x.irreps, 0 < ir.l) → ∀ n, powInt n x = .error .valueError) ∧
    ((∃ ir ∈ expand x.irreps, ir ≠ ⟨0, .e⟩) → ∀ f, powReal f x = .error .valueError) := by
  have hall : (∃ ir ∈ expand x.irreps, ir ≠ ⟨0, .e⟩) → ¬ (x.irreps.all fun m => m.ir == ⟨0, .e⟩) = true := by
    rintro ⟨ir, h1, h2⟩ h
    simp only [List.all_eq_true, beq_iff_eq] at h
    unfold expand at h1
    simp only [List.mem_flatMap, List.mem_replicate] at h1
    obtain ⟨m, hm, -, rfl⟩ := h1
    exact h2 (h m hm)
  constructor
  · rintro ⟨ir, h1, h2⟩ n
    unfold powInt
    rw [if_neg (hall ⟨ir, h1, by rintro rfl; simp at h2⟩)]
    have hL := C11_lmax x.irreps
    cases hl : x.irreps.lmax with
    | error e =>
      have he : e = .valueError := by
        unfold Irreps.lmax at hl
        split at hl
        · exact (Except.error.inj hl).symm
        · split at hl
          · cases hl
          · exact (Except.error.inj hl).symm
      rw [he]
    | ok L =>
      have := (hL.2 L hl).2 ir h1
      dsimp only
      rw [if_neg (by omega)]
  · intro h f
    unfold powReal powScalars
    rw [if_neg (hall h)]

/-- The sign of a scalar under a transformation. -/
noncomputable def sign (p : Parity) (R : Matrix (Fin 3) (Fin 3) ℝ) : ℝ := match p with
  | .e => 1
  | .o => R.det

theorem scalar_D {R : Matrix (Fin 3) (Fin 3) ℝ} (hR : IsOrth R) (p : Parity) : dMatrix ⟨0, p⟩ R = sign p R • 1 := by
  cases p with
  | e => rw [(C39_defining hR).2.2.1]; simp [sign]
  | o => rw [(C39_defining hR).2.2.2]; rfl

theorem scalar_array {R : Matrix (Fin 3) (Fin 3) ℝ} (hR : IsOrth R) {irs : List Irrep} (h0 : ∀ ir ∈ irs, ir.l = 0) {a : List (ι → ℝ)} (hl : a.length = irs.length) :
    ((blocksOf irs a).map fun b => matVec (matRows (dMatrix b.1 R)) b.2).flatten = List.zipWith (fun ir v => sign ir.p R • v) irs a := by
  induction irs generalizing a with
  | nil => cases a with
    | nil => rfl
    | cons => simp at hl
  | cons ir irs ih =>
    cases a with
    | nil => simp at hl
    | cons v a =>
      have hir : ir = ⟨0, ir.p⟩ := by
        have := h0 ir (by simp)
        cases ir; simp only at this; rw [this]
      have e1 : (v :: a).take (2 * ir.l + 1) = [v] := by rw [h0 ir (by simp)]; simp
      have e2 : (v :: a).drop (2 * ir.l + 1) = a := by rw [h0 ir (by simp)]; simp
      simp only [blocksOf, e1, e2, List.map_cons, List.flatten_cons, List.zipWith_cons_cons]
      rw [ih (fun ir h => h0 ir (by simp [h])) (by simpa using hl)]
      have : matVec (matRows (dMatrix ir R)) [v] = [sign ir.p R • v] := by
        rw [hir, scalar_D hR]
        simp only [matVec, matRows, List.ofFn_succ, List.map_cons]
        simp
      rw [this]; rfl

/-- **C113 (equivariance).** The power of the transformed array is the transformed power. -/
theorem C113_equivariant {R : Matrix (Fin 3) (Fin 3) ℝ} (hR : IsOrth R) (n : ℤ) (x : IArr (ι → ℝ)) (hx : x.Coherent) (h0 : ∀ m ∈ x.irreps, m.ir.l = 0)
    (hne : expand x.irreps ≠ [] ∨ ∀ m ∈ x.irreps, m.ir = ⟨0, .e⟩) :
    ∃ x' y y' y0 z, x.transformByMatrix R = .ok x' ∧ powInt n x = .ok y ∧ powInt n x' = .ok y' ∧ ofArray y.irreps y.array = .ok y0 ∧ y0.transformByMatrix R = .ok z ∧
      y'.irreps = z.irreps ∧ y'.array = z.array := by
  obtain ⟨x', x1, x2, x3, -, x5⟩ := C59_transform R x hx
  obtain ⟨y, y1, y2, y3, -⟩ := C113_pow n x hx h0 hne
  obtain ⟨y', w1, w2, w3, -⟩ := C113_pow n x' x2 (by rw [x3]; exact h0) (by rw [x3]; exact hne)
  have hexp : ∀ ir ∈ expand x.irreps, ir.l = 0 := by
    intro ir h
    unfold expand at h
    simp only [List.mem_flatMap, List.mem_replicate] at h
    obtain ⟨m, hm, -, rfl⟩ := h
    exact h0 m hm
  have hye : expand y.irreps = (expand x.irreps).map fun ir => ⟨0, if n % 2 = 0 then .e else ir.p⟩ := by
    rw [y3]
    unfold expand
    rw [List.map_flatMap, List.flatMap_map]
    simp
  have hdim : ∀ l : List Irrep, (∀ ir ∈ l, ir.l = 0) → dimOf l = l.length := by
    intro l h
    induction l with
    | nil => rfl
    | cons ir l ih =>
      rw [dimOf_cons, ih fun ir hi => h ir (by simp [hi]), List.length_cons]
      have := h ir (by simp)
      unfold Irrep.dim; omega
  have hal : x.array.length = (expand x.irreps).length := by rw [hx.array_length, hdim _ hexp]
  have hy0 : ∀ ir ∈ expand y.irreps, ir.l = 0 := by
    rw [hye]; intro ir h; obtain ⟨_, -, rfl⟩ := List.mem_map.mp h; rfl
  obtain ⟨y0, a1, a2, a3, a4, -⟩ := (C12_from_array y.irreps y.array).1 (by rw [y2, List.length_map, hal, hdim _ hy0, hye, List.length_map])
  obtain ⟨z, z1, z2, z3, -, z5⟩ := C59_transform R y0 a2
  refine ⟨x', y, y', y0, z, x1, y1, w1, a1, z1, by rw [w3, z3, a3, y3, x3], ?_⟩
  have e1 : x'.array = List.zipWith (fun ir v => sign ir.p R • v) (expand x.irreps) x.array := by
    rw [← x2.inv.array_eq_blocks, x5, List.map_map]
    exact scalar_array hR hexp hal
  have e2 : z.array = List.zipWith (fun ir v => sign ir.p R • v) (expand y.irreps) y.array := by
    rw [← z2.inv.array_eq_blocks, z5, List.map_map, IArr.blocks, a3, a4]
    exact scalar_array hR hy0 (by rw [y2, List.length_map, hal, hye, List.length_map])
  rw [w2, e1, e2, y2, hye]
  have hs : ∀ p, sign p R = 1 ∨ sign p R = -1 := by
    intro p
    cases p with
    | e => exact Or.inl rfl
    | o => exact hR.det_cases
  rw [List.zipWith_map, List.map_zipWith]
  congr 1
  funext ir v i
  show (sign ir.p R * v i) ^ n = sign (if n % 2 = 0 then .e else ir.p) R * v i ^ n
  rw [mul_zpow]
  congr 1
  by_cases hn : n % 2 = 0
  · rw [if_pos hn]
    have he : Even n := Int.even_iff.mpr hn
    rcases hs ir.p with h | h <;> rw [h] <;> simp [sign, he.neg_one_zpow]
  · rw [if_neg hn]
    have ho : Odd n := Int.odd_iff.mpr (by omega)
    rcases hs ir.p with h | h <;> rw [h] <;> simp [ho.neg_one_zpow]

/-- A concrete case: the square and the cube of `1x0e + 1x0o`. -/
example : let x : IArr (Unit → ℝ) := ⟨[⟨1, ⟨0, .e⟩⟩, ⟨1, ⟨0, .o⟩⟩], [fun _ => 2, fun _ => 3], none, none⟩
    x.Coherent ∧ (∀ m ∈ x.irreps, m.ir.l = 0) ∧ expand x.irreps ≠ [] ∧ ∃ y, powInt 2 x = .ok y ∧ y.irreps = [⟨1, ⟨0, .e⟩⟩, ⟨1, ⟨0, .e⟩⟩] := by
  intro x
  have hx : x.Coherent := by
    obtain ⟨x0, e1, h, -⟩ := (C12_from_array [⟨1, ⟨0, .e⟩⟩, ⟨1, ⟨0, .o⟩⟩] [(fun _ => 2 : Unit → ℝ), fun _ => 3]).1 rfl
    have e2 : x0 = x := (Except.ok.inj e1).symm
    rw [e2] at h; exact h
  refine ⟨hx, by decide, by decide, ?_⟩
  obtain ⟨y, y1, -, y3, -⟩ := C113_pow 2 x hx (by decide) (Or.inl (by decide))
  exact ⟨y, y1, by rw [y3]; rfl⟩

end E3nn.Pow

import Verif.Lemmas.NaturalMore
import Verif.Props.C22

/-!
# C92: the operations act row by row

`gather i x` is `x[i]`: the rows of `x` at the positions `i e`, in any number and any order.
-/

namespace E3nn.MPC
open E3nn.IArr E3nn.Wig E3nn.SH E3nn.Activ

/-- An operation on arrays with a leading axis acts row by row: for every array with any number of rows and every choice `i` of rows of it, the operation on the chosen rows returns the chosen rows
of the result. -/
def RowWise (op : ∀ κ : Type, IArr (κ → ℝ) → Except PyErr (IArr (κ → ℝ))) : Prop :=
  ∀ (ν ε : Type) (i : ε → ν) (x y : IArr (ν → ℝ)), x.Coherent → op ν x = .ok y →
    ∃ x' y' z, gather i x = .ok x' ∧ op ε x' = .ok y' ∧ gather i y = .ok z ∧ y'.Equal z

/-- The same for two arguments. -/
def RowWise2 (op : ∀ κ : Type, IArr (κ → ℝ) → IArr (κ → ℝ) → Except PyErr (IArr (κ → ℝ))) : Prop :=
  ∀ (ν ε : Type) (i : ε → ν) (a b y : IArr (ν → ℝ)), a.Coherent → b.Coherent → op ν a b = .ok y →
    ∃ a' b' y' z, gather i a = .ok a' ∧ gather i b = .ok b' ∧ op ε a' b' = .ok y' ∧ gather i y = .ok z ∧ y'.Equal z

theorem rowWise_of {op : ∀ κ : Type, IArr (κ → ℝ) → Except PyErr (IArr (κ → ℝ))}
    (h : ∀ {ν ε : Type} (i : ε → ν) (x y : IArr (ν → ℝ)) (x' : IArr (ε → ℝ)), Mp (pull i) x x' → op ν x = .ok y → ∃ y', op ε x' = .ok y' ∧ Mp (pull i) y y') : RowWise op := by
  intro ν ε i x y hx hy
  obtain ⟨x', x1, x2⟩ := gather_mp i hx.inv
  obtain ⟨y', y1, y2⟩ := h i _ _ _ x2 hy
  obtain ⟨z, z1, z2⟩ := gather_mp i y2.inv
  exact ⟨x', y', z, x1, y1, z1, y2.unique z2⟩

theorem rowWise2_of {op : ∀ κ : Type, IArr (κ → ℝ) → IArr (κ → ℝ) → Except PyErr (IArr (κ → ℝ))}
    (h : ∀ {ν ε : Type} (i : ε → ν) (a b y : IArr (ν → ℝ)) (a' b' : IArr (ε → ℝ)), Mp (pull i) a a' → Mp (pull i) b b' → op ν a b = .ok y →
      ∃ y', op ε a' b' = .ok y' ∧ Mp (pull i) y y') : RowWise2 op := by
  intro ν ε i a b y ha hb hy
  obtain ⟨a', a1, a2⟩ := gather_mp i ha.inv
  obtain ⟨b', b1, b2⟩ := gather_mp i hb.inv
  obtain ⟨y', y1, y2⟩ := h i _ _ _ _ _ a2 b2 hy
  obtain ⟨z, z1, z2⟩ := gather_mp i y2.inv
  exact ⟨a', b', y', z, a1, b1, y1, z1, y2.unique z2⟩

/-- **C92 (rearrangements).** `rechunk`, `sort`, `regroup`, `filter`, `remove_zero_chunks` and `slice_by_mul` act row by row. -/
theorem C92_rearrange (ms : Irreps) (keep drop : Option Irreps.FilterArg) (L : Option Int) (s : PySlice) :
    RowWise (fun _ x => x.rechunk ms) ∧ RowWise (fun _ x => x.sort) ∧ RowWise (fun _ x => x.regroup) ∧ RowWise (fun _ x => x.filter keep drop L) ∧
      RowWise (fun _ x => x.removeZeroChunks) ∧ RowWise (fun _ x => x.sliceByMul s) :=
  ⟨rowWise_of fun {_ _} _ _ _ _ h hy => mp_rechunk h hy, rowWise_of fun {_ _} _ _ _ _ h hy => mp_sort (map_zero _) h hy, rowWise_of fun {_ _} _ _ _ _ h hy => mp_regroup (map_zero _) h hy,
    rowWise_of fun {_ _} _ _ _ _ h hy => mp_filter (map_zero _) h hy, rowWise_of fun {_ _} _ _ _ _ h hy => mp_removeZeroChunks (map_zero _) h hy, rowWise_of fun {_ _} _ _ _ _ h hy => mp_sliceByMul (map_zero _) h hy⟩

/-- **C92 (arithmetic).** Sums, differences, products with a number, products of arrays, norms, dot products and cross products are computed row by row. -/
theorem C92_arithmetic (r : ℝ) {n : IrNorm} (hn : n ≠ .other) (squared per : Bool) :
    RowWise2 (fun _ => IArr.add) ∧ RowWise2 (fun _ => IArr.sub) ∧ RowWise (fun _ x => x.scale fun col v => r * col v) ∧ RowWise2 (fun _ => mulArrays n) ∧
      RowWise (fun _ x => Basic.norm squared per x) ∧ RowWise2 (fun _ => Basic.dot per) ∧ RowWise2 (fun _ => Basic.cross) :=
  ⟨rowWise2_of fun {_ _} i _ _ _ _ _ h k hy => mp_add i h k hy, rowWise2_of fun {_ _} i _ _ _ _ _ h k hy => mp_sub i h k hy, rowWise_of fun {_ _} i _ _ _ h hy => mp_scaleCols i (by simp) h hy,
    rowWise2_of fun {_ _} i _ _ _ _ _ h k hy => mp_mulArrays hn i h k hy, rowWise_of fun {_ _} i _ _ _ h hy => mp_norm i squared per h hy, rowWise2_of fun {_ _} i _ _ _ _ _ h k hy => mp_dot i per h k hy,
    rowWise2_of fun {_ _} i _ _ _ _ _ h k hy => mp_cross i h k hy⟩

/-- **C92 (`concatenate`).** -/
theorem C92_concatenate {ν ε : Type} (i : ε → ν) (xs : List (IArr (ν → ℝ))) (hx : ∀ x ∈ xs, x.Coherent) {y : IArr (ν → ℝ)} (hy : concatenate xs = .ok y) :
    ∃ xs' y' z, xs.mapM (gather i) = .ok xs' ∧ concatenate xs' = .ok y' ∧ gather i y = .ok z ∧ y'.Equal z := by
  have : ∃ xs', xs.mapM (gather i) = .ok xs' ∧ List.Forall₂ (Mp (pull i)) xs xs' := by
    clear hy
    induction xs with
    | nil => exact ⟨[], rfl, .nil⟩
    | cons x xs ih =>
      obtain ⟨xs', h1, h2⟩ := ih fun x hx' => hx x (List.mem_cons_of_mem _ hx')
      obtain ⟨x', k1, k2⟩ := gather_mp i (hx x (List.mem_cons_self ..)).inv
      refine ⟨x' :: xs', ?_, .cons k2 h2⟩
      rw [List.mapM_cons, k1, h1]
      rfl
  obtain ⟨xs', h1, h2⟩ := this
  obtain ⟨y', y1, y2⟩ := mp_concatenate h2 hy
  obtain ⟨z, z1, z2⟩ := gather_mp i y2.inv
  exact ⟨xs', y', z, h1, y1, z1, y2.unique z2⟩

/-- **C92 (tensor products).** `tensor_product` and `elementwise_tensor_product` act row by row. -/
theorem C92_products {n : IrNorm} (hn : n ≠ .other) (filter : Option (List Irrep)) (regroup : Bool) :
    RowWise2 (fun κ => TP.tensorProduct (realCtx (κ → ℝ)) n filter regroup) ∧ RowWise2 (fun κ => TP.elementwise (realCtx (κ → ℝ)) n filter) :=
  ⟨rowWise2_of fun {_ _} i _ _ _ _ _ h k hy => TP.mp_tensorProduct (φ := (pull i).toRingHom) (realCtx_shape _).ok (realCtx_shape _).ok (realCtx_map (pull i)) hn filter regroup h k hy,
    rowWise2_of fun {_ _} i _ _ _ _ _ h k hy => TP.mp_elementwise (φ := (pull i).toRingHom) (realCtx_shape _).ok (realCtx_shape _).ok (realCtx_map (pull i)) hn filter h k hy⟩

/-- **C92 (layers).** `Linear` (without explicit instructions), the perceptron and `norm_activation` act row by row. -/
theorem C92_layers (c : LinM.Cfg) (hc : c.instructions = none) (P : LinM.Params) (pts : List ℝ) (cm : MLP.Cfg) (Pm : MLP.Params) (env : ℕ → ℝ → ℝ) (acts : List (Option ℕ)) (component : Bool) :
    RowWise (fun κ => LinM.callAxis (κ → ℝ) c P) ∧ RowWise (fun _ => MLP.callAxis pts cm Pm) ∧ RowWise (fun _ => normActivation env acts component) :=
  ⟨rowWise_of fun {_ _} i _ _ _ h hy => LinM.mp_callAxis (pull i) c hc P h hy, rowWise_of fun {_ _} i _ _ _ h hy => mp_callAxisM i pts cm Pm h hy,
    rowWise_of fun {_ _} i _ _ _ h hy => mp_normActivation i env acts component h hy⟩

/-- **C92 (`scalar_activation`).** It acts row by row, when the activations of the terms marked as zero vanish at zero. -/
theorem C92_scalar_activation (env : ℕ → ℝ → ℝ) (ptsN : List ℝ) (acts : Option (List (Option ℕ))) (even odd : ℕ) (nrm : Bool) {ν ε : Type} (i : ε → ν) {x y : IArr (ν → ℝ)} (hx : x.Coherent)
    (hz : (∀ b ∈ x.zeroFlags, b = false) ∨ ∀ a, effective env ptsN nrm a 0 = 0) (hy : scalarActivation env ptsN acts even odd nrm x = .ok y) :
    ∃ x' y' z, gather i x = .ok x' ∧ scalarActivation env ptsN acts even odd nrm x' = .ok y' ∧ gather i y = .ok z ∧ y'.Equal z := by
  obtain ⟨x', x1, x2⟩ := gather_mp i hx.inv
  obtain ⟨y', y1, y2⟩ := mp_scalarActivation i env ptsN acts even odd nrm x2 (by
    intro q hq hn b hb
    rcases hz with hz | hz
    · exfalso
      have h1 := (List.of_mem_zip hq).1
      have h2 : q.1.2.isNone ∈ x.zeroFlags := by
        have := hx.inv.pairs.2.2.2.2.1
        rw [← this]
        exact List.mem_map_of_mem (f := fun p : MulIrrep × Chunk (ν → ℝ) => p.2.isNone) h1
      rw [hn] at h2
      exact absurd (hz _ h2) (by simp)
    · exact hz b) hy
  obtain ⟨z, z1, z2⟩ := gather_mp i y2.inv
  exact ⟨x', y', z, x1, y1, z1, y2.unique z2⟩

/-- **C92 (`spherical_harmonics`).** They are computed row by row. -/
theorem C92_spherical_harmonics {cfg algorithm : Option (List String)} (halg : ∀ a, (algorithm <|> cfg) = some a → AlgOk a) (nrm : Normalization) (ls : List ℕ) (normalize : Bool)
    {p : Parity} {ν ε : Type} (i : ε → ν) {x : IArr (ν → ℝ)} (hx : x.Coherent) (hxi : x.irreps = [⟨1, ⟨1, p⟩⟩]) :
    ∃ x' y y' z, gather i x = .ok x' ∧ sphericalHarmonics cfg (.ints ls) (.arr x) normalize nrm algorithm = .ok y ∧
      sphericalHarmonics cfg (.ints ls) (.arr x') normalize nrm algorithm = .ok y' ∧ gather i y = .ok z ∧ y'.Equal z := by
  obtain ⟨x', x1, x2⟩ := gather_mp i hx.inv
  obtain ⟨y, y', y1, y2, y3⟩ := mp_sphericalHarmonics i halg nrm ls normalize x2 hxi
  obtain ⟨z, z1, z2⟩ := gather_mp i y3.inv
  exact ⟨x', y, y', z, x1, y1, y2, z1, y3.unique z2⟩

/-- One row of the result, computed from this row alone: the choice of one row. -/
example (ν : Type) (v : ν) (x y : IArr (ν → ℝ)) (hx : x.Coherent) (hy : x.regroup = .ok y) :
    ∃ x' y' z, gather (fun _ : Unit => v) x = .ok x' ∧ x'.regroup = .ok y' ∧ gather (fun _ : Unit => v) y = .ok z ∧ y'.Equal z :=
  (C92_rearrange [] none none none ⟨none, none, none⟩).2.2.1 ν Unit (fun _ => v) x y hx hy

/-- The hypotheses are met: a product of two vectors returns. -/
example : ∃ (a b y : IArr (Fin 2 → ℝ)), a.Coherent ∧ b.Coherent ∧ TP.tensorProduct (realCtx (Fin 2 → ℝ)) .component none true a b = .ok y := by
  obtain ⟨a, -, a2, -⟩ := (C12_from_array (α := Fin 2 → ℝ) [⟨1, ⟨1, .o⟩⟩] [fun v => v, fun _ => 1, fun _ => 2]).1 (by decide)
  obtain ⟨-, -, y, -, -, -, -, -, y1, -⟩ := TP.tensorProduct_spec (realCtx_shape (Fin 2 → ℝ)).ok (n := .component) (by decide) none true a2.inv a2.inv
  exact ⟨a, a, y, a2, a2, y1⟩

end E3nn.MPC

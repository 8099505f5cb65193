import Verif.Lemmas.Natural
import Verif.Model.MessagePassing
import Verif.Props.C45
import Verif.Props.C48
import Verif.Props.C90

/-! # Lemmas for `MessagePassingConvolution` -/

namespace E3nn.LinM
open E3nn.IArr

/-! ### `Linear` on arrays with leading axes -/

theorem mapM_get {γ : Type} {g : γ → Except PyErr (List ℝ)} {n : γ → ℕ} (hg : ∀ a w, g a = .ok w → w.length = n a) :
    ∀ {l : List γ} {ws : List (List ℝ)}, l.mapM g = .ok ws → ws.map List.length = l.map n
  | [], ws, h => by cases h; rfl
  | a :: l, ws, h => by
    rw [List.mapM_cons] at h
    cases ha : g a with
    | error e => rw [ha] at h; cases h
    | ok w =>
      cases hl : l.mapM g with
      | error e => rw [ha, hl] at h; cases h
      | ok ws' =>
        rw [ha, hl] at h
        cases h
        simp [hg a w ha, mapM_get hg hl]

theorem weight_length {f : FLin ℝ} {g : ℝ} {P : Params} (ins : LinIns ℝ) (w : List ℝ) (h : weight f g P .vanilla ins = .ok w) : w.length = FLin.size ins := by
  simp only [weight, get] at h
  split_ifs at h with hl
  cases h
  exact hl

theorem over_good {K : Type} [CommRing K] [Algebra ℝ K] {f : FLin ℝ} (hf : FLin.Good f) : FLin.Good (f.over K) := by
  intro ins hins
  obtain ⟨i, hi, rfl⟩ := List.mem_map.mp hins
  exact hf i hi

theorem over_weights {K : Type} [CommRing K] [Algebra ℝ K] {f : FLin ℝ} {ws : List (List ℝ)} (hw : ws.map List.length = f.instructions.map FLin.size) :
    FLin.WeightsOk (f.over K) (ws.map fun w => w.map (algebraMap ℝ K)) := by
  unfold FLin.WeightsOk
  rw [List.map_map, FLin.over, List.map_map, show (List.length ∘ fun w : List ℝ => w.map (algebraMap ℝ K)) = List.length by funext; simp, hw]
  rfl

/-- The steps of a call that returns. -/
theorem callAxis_steps {K : Type} [CommRing K] [Algebra ℝ K] {c : Cfg} {P : Params} {x y : IArr K} (hy : callAxis K c P x = .ok y) :
    ∃ z out f ws u, prepInput c x = .ok z ∧ outIrreps c z.irreps = .ok out ∧ validate c false z.irreps = .ok () ∧
      FLin.init z.irreps out c.instructions (.all c.biases) c.a c.g = .ok f ∧ f.instructions.mapM (weight f c.g P .vanilla) = .ok ws ∧
      (f.over K).call (ws.map fun w => w.map (algebraMap ℝ K)) z = .ok u ∧ finish c u = .ok y := by
  unfold callAxis at hy
  cases h1 : prepInput c x with
  | error e => rw [h1] at hy; cases hy
  | ok z =>
    simp only [h1, bind, Except.bind] at hy
    cases h2 : outIrreps c z.irreps with
    | error e => rw [h2] at hy; cases hy
    | ok out =>
      simp only [h2] at hy
      cases h3 : validate c false z.irreps with
      | error e => rw [h3] at hy; cases hy
      | ok u =>
        simp only [h3] at hy
        cases h4 : FLin.init z.irreps out c.instructions (.all c.biases) c.a c.g with
        | error e => rw [h4] at hy; cases hy
        | ok f =>
          simp only [h4] at hy
          cases h5 : f.instructions.mapM (weight f c.g P .vanilla) with
          | error e => rw [h5] at hy; cases hy
          | ok ws =>
            simp only [h5] at hy
            cases h6 : (f.over K).call (ws.map fun w => w.map (algebraMap ℝ K)) z with
            | error e => rw [h6] at hy; cases hy
            | ok v =>
              simp only [h6] at hy
              exact ⟨z, out, f, ws, v, rfl, h2, h3, h4, h5, h6, hy⟩

theorem callAxis_of_steps {K : Type} [CommRing K] [Algebra ℝ K] {c : Cfg} {P : Params} {x y z u : IArr K} {out : Irreps} {f : FLin ℝ} {ws : List (List ℝ)}
    (h1 : prepInput c x = .ok z) (h2 : outIrreps c z.irreps = .ok out) (h3 : validate c false z.irreps = .ok ())
    (h4 : FLin.init z.irreps out c.instructions (.all c.biases) c.a c.g = .ok f) (h5 : f.instructions.mapM (weight f c.g P .vanilla) = .ok ws)
    (h6 : (f.over K).call (ws.map fun w => w.map (algebraMap ℝ K)) z = .ok u) (h7 : finish c u = .ok y) : callAxis K c P x = .ok y := by
  simp only [callAxis, h1, h2, h3, h4, h5, h6, h7, bind, Except.bind]

theorem mp_prepInput {α β : Type} [Zero α] [Zero β] {φ : α → β} (h0 : φ 0 = 0) (c : Cfg) {x z : IArr α} {x' : IArr β} (h : Mp φ x x') (hz : prepInput c x = .ok z) :
    ∃ z', prepInput c x' = .ok z' ∧ Mp φ z z' := by
  unfold prepInput at hz ⊢
  split_ifs at hz ⊢
  · cases hv : x.removeZeroChunks with
    | error e => simp only [bind, Except.bind, hv] at hz; cases hz
    | ok v =>
      obtain ⟨v', v1, v2⟩ := mp_removeZeroChunks h0 h hv
      simp only [bind, Except.bind, hv, v1] at hz ⊢
      exact mp_regroup h0 v2 hz
  · cases hz
    exact ⟨x', rfl, h⟩

theorem mp_finish {α β : Type} [Zero α] [Zero β] {φ : α → β} (c : Cfg) {x z : IArr α} {x' : IArr β} (h : Mp φ x x') (hz : finish c x = .ok z) :
    ∃ z', finish c x' = .ok z' ∧ Mp φ z z' := by
  unfold finish at hz ⊢
  split_ifs at hz ⊢
  · exact mp_rechunk h hz
  · cases hz
    exact ⟨x', rfl, h⟩

theorem over_map {K L : Type} [CommRing K] [Algebra ℝ K] [CommRing L] [Algebra ℝ L] (φ : K →ₐ[ℝ] L) (f : FLin ℝ) : FLin.mapK φ.toRingHom (f.over K) = f.over L := by
  unfold FLin.mapK FLin.over
  simp [Function.comp_def]

/-- The layer commutes with every homomorphism of algebras of columns. -/
theorem mp_callAxis {K L : Type} [CommRing K] [Algebra ℝ K] [CommRing L] [Algebra ℝ L] (φ : K →ₐ[ℝ] L) (c : Cfg) (hc : c.instructions = none) (P : Params) {x y : IArr K}
    {x' : IArr L} (h : Mp φ x x') (hy : callAxis K c P x = .ok y) : ∃ y', callAxis L c P x' = .ok y' ∧ Mp φ y y' := by
  obtain ⟨z, out, f, ws, u, h1, h2, h3, h4, h5, h6, h7⟩ := callAxis_steps hy
  obtain ⟨z', z1, z2⟩ := mp_prepInput (map_zero φ) c h h1
  have hg := over_good (K := K) (FLin.init_good h4 fun ps hps => by rw [hc] at hps; cases hps)
  have hw := over_weights (K := K) (mapM_get (fun a w => weight_length a w) h5)
  obtain ⟨u', u1, u2⟩ := FLin.mp_call φ.toRingHom hg hw z2 h6
  rw [over_map] at u1
  have e : (ws.map fun w => w.map (algebraMap ℝ K)).map (fun w => w.map φ.toRingHom) = ws.map fun w => w.map (algebraMap ℝ L) := by
    simp [List.map_map, Function.comp_def]
  rw [e] at u1
  obtain ⟨y', y1, y2⟩ := mp_finish c u2 h7
  exact ⟨y', callAxis_of_steps z1 (by rw [z2.irreps]; exact h2) (by rw [z2.irreps]; exact h3) (by rw [z2.irreps]; exact h4) h5 u1 y1, y2⟩

/-- The layer commutes with the transformations. -/
theorem tr_callAxis {K : Type} [CommRing K] [Algebra ℝ K] {D : Irrep → List K → List K} (hD : FLin.LinAct D) (h0 : FLin.FixesScalars D) (c : Cfg) (hc : c.instructions = none)
    (P : Params) {x x' y : IArr K} (h : Tr D x x') (hy : callAxis K c P x = .ok y) : ∃ y', callAxis K c P x' = .ok y' ∧ Tr D y y' := by
  obtain ⟨z, out, f, ws, u, h1, h2, h3, h4, h5, h6, h7⟩ := callAxis_steps hy
  obtain ⟨z', z1, z2⟩ := tr_prepInput hD.toAct c h h1
  have hg := over_good (K := K) (FLin.init_good h4 fun ps hps => by rw [hc] at hps; cases hps)
  have hw := over_weights (K := K) (mapM_get (fun a w => weight_length a w) h5)
  obtain ⟨u', u1, u2⟩ := FLin.tr_call hD hg (Or.inl h0) hw z2 h6
  obtain ⟨y', y1, y2⟩ := tr_finish hD.toAct c u2 h7
  exact ⟨y', callAxis_of_steps z1 (by rw [z2.irreps]; exact h2) (by rw [z2.irreps]; exact h3) (by rw [z2.irreps]; exact h4) h5 u1 y1, y2⟩

/-- Two arrays with the same irreps and the same flags are prepared in the same way. -/
theorem prepInput_irreps {α β : Type} [Zero α] [Zero β] (c : Cfg) {x z : IArr α} {x' : IArr β} (hx : Inv x) (hx' : Inv x') (hi : x'.irreps = x.irreps)
    (hf : x'.zeroFlags = x.zeroFlags) (hz : prepInput c x = .ok z) : ∃ z', prepInput c x' = .ok z' ∧ z'.irreps = z.irreps ∧ Inv z ∧ Inv z' := by
  obtain ⟨w, w1, w2⟩ := mp_mapCols (φ := fun _ : α => (0 : β)) rfl hx
  obtain ⟨w', w1', w2'⟩ := mp_mapCols (φ := fun _ : β => (0 : β)) rfl hx'
  obtain ⟨z', z1, -⟩ := prepInput_spec c hx'.coherent
  obtain ⟨q, q1, q2⟩ := mp_prepInput rfl c w2 hz
  obtain ⟨q', q1', q2'⟩ := mp_prepInput rfl c w2' z1
  have he : Mp (fun a : β => a) w w' := by
    refine ⟨w2.inv', w2'.inv', by rw [w2.irreps, w2'.irreps, hi], by rw [w2.flags, w2'.flags, hf], ?_⟩
    rw [w2.array, w2'.array, List.map_map, List.map_const', Function.comp_def, List.map_const', hx'.length_array, hx.length_array, hi]
  obtain ⟨q'', q3, q4⟩ := mp_prepInput rfl c he q1
  rw [q1'] at q3
  cases q3
  exact ⟨z', z1, by rw [← q2'.irreps, q4.irreps, q2.irreps], q2.inv, q2'.inv⟩

/-- Whether the layer returns depends on the irreps and the flags only. -/
theorem callAxis_returns {K L : Type} [CommRing K] [Algebra ℝ K] [CommRing L] [Algebra ℝ L] (c : Cfg) (hc : c.instructions = none) (P : Params) {x y : IArr K} {x' : IArr L}
    (hx : Inv x) (hx' : Inv x') (hi : x'.irreps = x.irreps) (hf : x'.zeroFlags = x.zeroFlags) (hy : callAxis K c P x = .ok y) : ∃ y', callAxis L c P x' = .ok y' := by
  obtain ⟨z, out, f, ws, u, h1, h2, h3, h4, h5, h6, h7⟩ := callAxis_steps hy
  obtain ⟨z', z1, z2, z3, z4⟩ := prepInput_irreps c hx hx' hi hf h1
  have hG := FLin.init_good h4 fun ps hps => by rw [hc] at hps; cases hps
  have hw := mapM_get (fun a w => weight_length a w) h5
  have hfi : f.irrepsIn = z.irreps := by obtain ⟨-, -, -, -, rfl⟩ := FLin.init_ok h4; rfl
  obtain ⟨r1, u1, a1, a2, a3, a4, a5, a6, a7, -⟩ := FLin.call_spec (over_good (K := K) hG) z3 (by rw [show (f.over K).irrepsIn = f.irrepsIn from rfl, hfi]) (over_weights hw)
  obtain ⟨r2, u2, b1, b2, b3, b4, b5, b6, b7, -⟩ := FLin.call_spec (over_good (K := L) hG) z4 (by rw [show (f.over L).irrepsIn = f.irrepsIn from rfl, hfi, z2]) (over_weights hw)
  rw [h6] at a5
  cases a5
  have hf' : ∃ y', finish c u2 = .ok y' := by
    unfold finish at h7 ⊢
    split_ifs at h7 ⊢
    · obtain ⟨-, -, -, he⟩ := FLin.rechunk_irreps a6 h7
      obtain ⟨y', y1, -⟩ := rechunk_spec b6 (new := c.irrepsOut) (by rw [b7, ← he, a7]; rfl)
      exact ⟨y', y1⟩
    · exact ⟨u2, rfl⟩
  obtain ⟨y', hy'⟩ := hf'
  exact ⟨y', callAxis_of_steps z1 (by rw [z2]; exact h2) (by rw [z2]; exact h3) (by rw [z2]; exact h4) h5 b5 hy'⟩

end E3nn.LinM

namespace E3nn.MPC
open E3nn.IArr E3nn.Wig E3nn.SH E3nn.Activ

variable {ν ε ν' ε' : Type}

/-! ### indexing -/

/-- Reindexing of the columns, as a homomorphism of algebras. -/
def pull (i : ε → ν) : (ν → ℝ) →ₐ[ℝ] (ε → ℝ) where
  toFun col e := col (i e)
  map_one' := rfl
  map_mul' _ _ := rfl
  map_zero' := rfl
  map_add' _ _ := rfl
  commutes' _ := rfl

theorem gather_mp (i : ε → ν) {x : IArr (ν → ℝ)} (hx : Inv x) : ∃ y, gather i x = .ok y ∧ Mp (pull i) x y :=
  mp_mapCols (φ := pull i) rfl hx

theorem Mp.comp {α β γ : Type} [Zero α] [Zero β] [Zero γ] {φ : α → β} {ψ : β → γ} {x : IArr α} {y : IArr β} {z : IArr γ} (h : Mp φ x y) (k : Mp ψ y z) : Mp (ψ ∘ φ) x z :=
  ⟨h.inv, k.inv', k.irreps.trans h.irreps, k.flags.trans h.flags, by rw [k.array, h.array, List.map_map]⟩

/-- Both ways around a square of columns agree. -/
theorem Mp.square {α β γ δ : Type} [Zero α] [Zero β] [Zero γ] [Zero δ] {φ : α → β} {ψ : β → δ} {φ' : α → γ} {ψ' : γ → δ} (hsq : ∀ a, ψ (φ a) = ψ' (φ' a))
    {x : IArr α} {y : IArr β} {x' : IArr γ} {y' : IArr δ} (h : Mp φ x y) (hx : Mp φ' x x') (hy : Mp ψ' x' y') : Mp ψ y y' := by
  refine ⟨h.inv', hy.inv', by rw [hy.irreps, hx.irreps, h.irreps], by rw [hy.flags, hx.flags, h.flags], ?_⟩
  rw [hy.array, hx.array, h.array, List.map_map, List.map_map]
  exact List.map_congr_left fun a _ => (hsq a).symm

theorem tr_of_mp {R : Matrix (Fin 3) (Fin 3) ℝ} (φ : (ν → ℝ) →ₗ[ℝ] (ε → ℝ)) {x x' : IArr (ν → ℝ)} {y y' : IArr (ε → ℝ)} (h : Tr (DR R) x x')
    (k : Mp φ x y) (k' : Mp φ x' y') : Tr (DR R) y y' := by
  refine Tr.of_blocks (act_DR R) k.inv' k'.inv' (by rw [k.irreps, k'.irreps, h.irreps]) (by rw [k.flags, k'.flags, h.flags]) ?_
  rw [k.blocks, k'.blocks, h.blocks (act_DR R), List.map_map, List.map_map]
  refine List.map_congr_left fun b _ => ?_
  simp only [Function.comp, TB]
  rw [Prod.mk.injEq]
  exact ⟨rfl, matVec_map φ _ _⟩

/-! ### the sum of the messages -/

open Classical in
/-- The sum over the edges that arrive at each node. -/
noncomputable def push [Fintype ε] (dst : ε → ν) : (ε → ℝ) →ₗ[ℝ] (ν → ℝ) where
  toFun b v := ∑ e ∈ Finset.univ.filter (fun e => dst e = v), b e
  map_add' a b := by funext v; simp [Finset.sum_add_distrib]
  map_smul' r b := by funext v; simp [Finset.mul_sum]

open Classical in
theorem scatter_mp [Fintype ε] (dst : ε → ν) {x : IArr (ε → ℝ)} (hx : Inv x) {z : IArr (ν → ℝ)} (hz : IArr.zeros x.irreps = .ok z) :
    ∃ y, scatterAdd dst z x = .ok y ∧ Mp (push dst) x y := by
  obtain ⟨w, w1, w2, w3, w4, w5, -⟩ := (C12_zeros_ones (α := ν → ℝ) x.irreps).1
  rw [hz] at w1
  cases w1
  obtain ⟨r, r1, r2, r3, r4⟩ := rechunk_spec hx (new := z.irreps) (by rw [w3])
  have r5 : r.zeroFlags = x.zeroFlags := by
    have := r1
    unfold rechunk at this
    rw [if_neg (by rw [w3]; simp), if_pos w3.symm] at this
    cases this; rfl
  have ha : List.zipWith (fun (a : ν → ℝ) (b : ε → ℝ) v => a v + ∑ e ∈ Finset.univ.filter (fun e => dst e = v), b e) z.array r.array = x.array.map (push dst) := by
    rw [w4, r4, ← Irreps.dim_eq_dimOf_expand, ← hx.length_array]
    generalize x.array = a
    induction a with
    | nil => rfl
    | cons c a ih =>
      simp only [List.length_cons, List.replicate_succ, List.zipWith_cons_cons, ih, List.map_cons]
      congr 1
      funext v
      simp [push]
  have hfl : List.zipWith (· && ·) z.zeroFlags r.zeroFlags = x.zeroFlags := by
    rw [w5, r5]
    have := hx.flags.lengths.2
    rw [← this]
    generalize x.zeroFlags = l
    induction l with
    | nil => rfl
    | cons b l ih => simp only [List.length_cons, List.replicate_succ, List.zipWith_cons_cons, ih, Bool.true_and]
  have hf := hx.flags.map (f := push dst) (map_zero _)
  refine ⟨⟨x.irreps, x.array.map (push dst), some x.zeroFlags, none⟩, ?_, hx, inv_nocache hf, rfl, rfl, rfl⟩
  unfold scatterAdd
  rw [if_neg (by rw [w3]; simp), r1]
  simp only [bind, Except.bind]
  rw [ha, hfl, w3]
  exact make_nocache hf

/-- The scatter does not look at more than the arrays. -/
theorem scatter_irreps [Fintype ε] {dst : ε → ν} {x : IArr (ε → ℝ)} (hx : Inv x) {z y : IArr (ν → ℝ)} (hz : IArr.zeros x.irreps = .ok z) (hy : scatterAdd dst z x = .ok y) :
    Mp (push dst) x y := by
  obtain ⟨y', a, b⟩ := scatter_mp dst hx hz
  rw [hy] at a
  cases a; exact b

/-! ### the attributes of the edges -/

/-- `sqrt(x² + y² + z²)`. -/
noncomputable def dist3 (v : Fin 3 → ℝ) : ℝ := Basic.safeSqrt (v 0 * v 0 + v 1 * v 1 + v 2 * v 2)

/-- The vector at each edge. -/
def pts (x : IArr (ε → ℝ)) : ε → Fin 3 → ℝ := fun e j => x.array.getD j 0 e

theorem distance_spec {p : Parity} {x : IArr (ε → ℝ)} (hx : x.Coherent) (hxi : x.irreps = [⟨1, ⟨1, p⟩⟩]) : distance x = .ok fun e => dist3 (pts x e) := by
  obtain ⟨v, hv⟩ : ∃ v : Fin 3 → ε → ℝ, x.array = List.ofFn v := exists_ofFn (vec_length hx hxi)
  obtain ⟨p1, p2, p3, p4, p5, p6⟩ := hx.inv.pairs
  have hcl : x.chunks.length = 1 := by
    rw [hx.inv.chunks_eq, hxi]
    exact (comp_length (by have := hx.inv.flags.lengths.2; rw [hxi] at this; exact this)).trans rfl
  obtain ⟨ch, hch⟩ : ∃ ch, x.chunks = [ch] := List.length_eq_one_iff.mp hcl
  unfold distance Basic.norm
  simp only [if_true]
  rw [hxi, hch] at p6 p1
  have hnorm : ∀ ch' : Chunk (ε → ℝ), ch' = ch.map (fun rows => rows.map (Basic.normRow false)) → flatChunk ⟨1, Basic.se⟩ ch' = [fun e => dist3 (pts x e)] ∧ shapeOk ⟨1, Basic.se⟩ ch' = true := by
    intro ch' e
    subst e
    cases ch with
    | none =>
      have hz : x.array = List.replicate 3 0 := by rw [← p6]; rfl
      refine ⟨?_, rfl⟩
      have : (fun e => dist3 (pts x e)) = (0 : ε → ℝ) := by
        funext e
        simp [dist3, pts, hz, Basic.safeSqrt]
      rw [this]; rfl
    | some rows =>
      have hs := p1 (⟨1, ⟨1, p⟩⟩, some rows) (by simp)
      obtain ⟨r, hr⟩ : ∃ r, rows = [r] := by
        apply List.length_eq_one_iff.mp
        simp [shapeOk] at hs
        exact hs.1
      subst hr
      have ha : x.array = r := by rw [← p6]; simp [flatChunk]
      refine ⟨?_, by simp [shapeOk, Basic.normRow, Basic.se, Irrep.dim]⟩
      simp only [Option.map_some, List.map_cons, List.map_nil, flatChunk, Basic.normRow, Bool.false_eq_true, if_false, List.flatten_cons, List.flatten_nil, List.append_nil]
      congr 1
      funext e
      rw [← ha]
      simp only [dist3, pts, Basic.rowDot, hv]
      simp [List.ofFn_succ, add_assoc]
  obtain ⟨h1, h2⟩ := hnorm _ rfl
  rw [hxi, hch]
  simp only [List.map_cons, List.map_nil]
  obtain ⟨y, y1, y2, y3, y4, y5, -⟩ := fromChunks_pairs [((⟨1, Basic.se⟩ : MulIrrep), ch.map fun rows => rows.map (Basic.normRow false))] (by intro q hq; simp at hq; subst hq; exact h2)
  simp only [List.map_cons, List.map_nil] at y1
  rw [y1]
  simp only [bind, Except.bind, y5, List.map_cons, List.map_nil, h1]
  rfl

/-- The irreps of the spherical harmonics. -/
def shIrreps (c : Cfg) (p : Parity) : Irreps := ((List.range c.lmax).map (· + 1)).map fun l => ⟨1, ⟨l, p.pow l⟩⟩

/-- The algorithm that is configured exists. -/
def ShOk (c : Cfg) : Prop := ∀ a, c.shCfg = some a → AlgOk a

theorem edgeAttrs_spec {c : Cfg} (hc : ShOk c) {p : Parity} {x : IArr (ε → ℝ)} (hx : x.Coherent) (hxi : x.irreps = [⟨1, ⟨1, p⟩⟩]) :
    ∃ rb sh y, rb.Coherent ∧ rb.irreps = [⟨c.radial.length, ⟨0, .e⟩⟩] ∧ rb.zeroFlags = [false] ∧ rb.array = (c.radial.map fun b e => b (dist3 (pts x e))) ∧
      sh.Coherent ∧ sh.irreps = shIrreps c p ∧ sh.zeroFlags = (shIrreps c p).map (fun _ => false) ∧
      sh.blocks = shBlocks (Y c.shNorm) (shIrreps c p) (fun e => point true (pts x e)) ∧
      concatenate [rb, sh] = .ok y ∧ edgeAttrs c x = .ok y := by
  obtain ⟨rb, b1, b2, b3, b4, -⟩ := C12_as_irreps_array (c.radial.map fun b e => b (dist3 (pts x e)))
  have bf : rb.zeroFlags = [false] := by
    unfold asIrrepsArray at b1
    have hm := make_noflags (α := ε → ℝ) (ms := [⟨(c.radial.map fun (b : ℝ → ℝ) (e : ε) => b (dist3 (pts x e))).length, ⟨0, .e⟩⟩])
      (a := c.radial.map fun b e => b (dist3 (pts x e))) (by simp [Irreps.dim, Irrep.dim])
    rw [hm.1] at b1
    cases b1
    rfl
  have ho : outIrreps (.ints ((List.range c.lmax).map (· + 1))) (.arr x) = .ok (shIrreps c p) := by
    simp only [outIrreps, hxi, checkIsVector_ok]; rfl
  obtain ⟨sh, s1, s2, s3, s4, s5⟩ := sh_run (cfg := c.shCfg) (algorithm := none) (nrm := c.shNorm) (f := Y c.shNorm) (by intro a ha; exact hc a ha) (fun l => Y_spec c.shNorm l) ho (p := p)
    (by intro m hm; simp only [shIrreps, List.mem_map] at hm; obtain ⟨l, -, rfl⟩ := hm; rfl)
    ⟨vec_length hx hxi, by intro y hy; cases hy; exact hxi⟩ true
  obtain ⟨y, y1, -⟩ := concatenate_spec (xs := [rb, sh]) (by simp) (by intro z hz; simp at hz; rcases hz with rfl | rfl; exacts [b2.inv, s2.inv])
  refine ⟨rb, sh, y, b2, by simpa using b3, bf, b4, s2, s3, ?_, s5, y1, ?_⟩
  · by_cases h0 : (shIrreps c p).numIrreps = 0
    · have hl : sh.zeroFlags.length = (shIrreps c p).length := by rw [s2.inv.flags.lengths.2, s3]
      have he : shIrreps c p = [] := by
        unfold shIrreps at h0 ⊢
        cases hn : c.lmax with
        | zero => rfl
        | succ n => rw [hn] at h0; simp [Irreps.numIrreps, List.range_succ] at h0
      rw [he] at hl ⊢
      exact List.eq_nil_of_length_eq_zero hl
    · exact s4 h0
  · unfold edgeAttrs
    rw [distance_spec hx hxi]
    simp only [bind, Except.bind, b1, s1, y1]

/-- The call returns only for vectors. -/
theorem edgeAttrs_vector {c : Cfg} {x y : IArr (ε → ℝ)} (hy : edgeAttrs c x = .ok y) : ∃ p, x.irreps = [⟨1, ⟨1, p⟩⟩] := by
  unfold edgeAttrs at hy
  cases h1 : distance x with
  | error e => rw [h1] at hy; cases hy
  | ok r =>
    simp only [h1, bind, Except.bind] at hy
    cases h2 : asIrrepsArray (c.radial.map fun b e => b (r e)) with
    | error e => rw [h2] at hy; cases hy
    | ok rb =>
      simp only [h2] at hy
      cases h3 : SH.sphericalHarmonics c.shCfg (.ints ((List.range c.lmax).map (· + 1))) (.arr x) true c.shNorm none with
      | error e => rw [h3] at hy; cases hy
      | ok sh =>
        unfold sphericalHarmonics at h3
        cases h4 : checkIsVector x.irreps with
        | error e => simp only [outIrreps, h4, Except.map] at h3; cases h3
        | ok p =>
          unfold checkIsVector at h4
          split_ifs at h4
          split at h4
          · rename_i m hm
            split_ifs at h4 with h5
            obtain ⟨k, l, q⟩ := m
            obtain ⟨rfl, rfl⟩ := h5
            exact ⟨q, hm⟩
          · cases h4

theorem Mp.of_blocks {α β : Type} [Zero α] [Zero β] {φ : α → β} {x : IArr α} {x' : IArr β} (hx : Inv x) (hx' : Inv x') (h1 : x'.irreps = x.irreps) (h2 : x'.zeroFlags = x.zeroFlags)
    (h3 : x'.blocks = x.blocks.map fun b => (b.1, b.2.map φ)) : Mp φ x x' := by
  refine ⟨hx, hx', h1, h2, ?_⟩
  rw [← hx.array_eq_blocks, ← hx'.array_eq_blocks, h3, List.map_flatten, List.map_map, List.map_map]
  rfl

theorem pts_pull (i : ε' → ε) {x : IArr (ε → ℝ)} {x' : IArr (ε' → ℝ)} (h : Mp (pull i) x x') (e : ε') : pts x' e = pts x (i e) := by
  funext j
  unfold pts
  rw [h.array, List.getD_eq_getElem?_getD, List.getD_eq_getElem?_getD, List.getElem?_map]
  cases x.array[(j : ℕ)]? <;> rfl

theorem mp_edgeAttrs {c : Cfg} (hc : ShOk c) (i : ε' → ε) {x y : IArr (ε → ℝ)} {x' : IArr (ε' → ℝ)} (hx : x.Coherent) (hx' : x'.Coherent) (hi : x'.irreps = x.irreps)
    (h : ∀ e, pts x' e = pts x (i e)) (hy : edgeAttrs c x = .ok y) :
    ∃ y', edgeAttrs c x' = .ok y' ∧ Mp (pull i) y y' := by
  obtain ⟨p, hp⟩ := edgeAttrs_vector hy
  obtain ⟨rb, sh, w, a1, a2, a3, a4, a5, a6, a7, a8, a9, a10⟩ := edgeAttrs_spec hc hx hp
  obtain ⟨rb', sh', w', b1, b2, b3, b4, b5, b6, b7, b8, b9, b10⟩ := edgeAttrs_spec hc hx' (hi.trans hp)
  rw [hy] at a10
  cases a10
  have hr : Mp (pull i) rb rb' := by
    refine ⟨a1.inv, b1.inv, by rw [a2, b2], by rw [a3, b3], ?_⟩
    rw [a4, b4, List.map_map]
    refine List.map_congr_left fun b _ => ?_
    funext e
    simp only [Function.comp, h]
    rfl
  have hs : Mp (pull i) sh sh' := by
    refine Mp.of_blocks a5.inv b5.inv (by rw [a6, b6]) (by rw [a7, b7]) ?_
    rw [a8, b8, shBlocks, shBlocks, List.map_map]
    refine List.map_congr_left fun ir _ => ?_
    simp only [Function.comp, h, List.map_ofFn]
    rfl
  obtain ⟨u, u1, u2⟩ := mp_concatenate (φ := pull i) (xs := [rb, sh]) (xs' := [rb', sh']) (.cons hr (.cons hs .nil)) a9
  rw [b9] at u1
  cases u1
  exact ⟨w', b10, u2⟩

theorem dist3_rot {D : Matrix (Fin 3) (Fin 3) ℝ} (hD : IsOrth D) (v : Fin 3 → ℝ) : dist3 (D.mulVec v) = dist3 v := by
  have h : ∀ w : Fin 3 → ℝ, w 0 * w 0 + w 1 * w 1 + w 2 * w 2 = w ⬝ᵥ w := fun w => by simp [dotProduct, Fin.sum_univ_three]
  have hD' : D.transpose * D = 1 := mul_eq_one_comm.mp hD
  unfold dist3
  rw [h, h, Matrix.dotProduct_mulVec, Matrix.vecMul_mulVec, hD', Matrix.vecMul_one]

theorem tr_scalars {R : Matrix (Fin 3) (Fin 3) ℝ} (hR : IsOrth R) {x x' : IArr (ε → ℝ)} (hx : Inv x) (hx' : Inv x') (h0 : ∀ m ∈ x.irreps, m.ir = ⟨0, .e⟩)
    (h1 : x'.irreps = x.irreps) (h2 : x'.zeroFlags = x.zeroFlags) (h3 : x'.array = x.array) : Tr (DR R) x x' := by
  refine Tr.of_blocks (act_DR R) hx hx' h1 h2 ?_
  have hb : x'.blocks = x.blocks := by unfold IArr.blocks; rw [h1, h3]
  rw [hb]
  conv => lhs; rw [← List.map_id x.blocks]
  refine List.map_congr_left fun b hb => ?_
  have hb1 : b.1 = ⟨0, .e⟩ := by
    have : b.1 ∈ x.blocks.map Prod.fst := List.mem_map_of_mem hb
    rw [show x.blocks.map Prod.fst = expand x.irreps from blocks_irs x] at this
    unfold expand at this
    obtain ⟨m, hm, h⟩ := List.mem_flatMap.mp this
    obtain ⟨-, h⟩ := List.mem_replicate.mp h
    rw [h, h0 m hm]
  have hl := block_length hx.coherent hb
  obtain ⟨ir, l⟩ := b
  simp only at hb1 hl
  subst hb1
  obtain ⟨a, rfl⟩ : ∃ a, l = [a] := List.length_eq_one_iff.mp hl
  simp only [id, TB, DR_scalar hR]
  simp [scalarSign]

theorem tr_edgeAttrs {c : Cfg} (hc : ShOk c) {R : Matrix (Fin 3) (Fin 3) ℝ} (hR : IsOrth R) {p : Parity} {x x' y : IArr (ε → ℝ)} (hx : x.Coherent) (hx' : x'.Coherent)
    (hi : x.irreps = [⟨1, ⟨1, p⟩⟩]) (hi' : x'.irreps = x.irreps) (hp : ∀ e, pts x' e = (dMatrix ⟨1, p⟩ R).mulVec (pts x e)) (hy : edgeAttrs c x = .ok y) :
    ∃ y', edgeAttrs c x' = .ok y' ∧ Tr (DR R) y y' := by
  obtain ⟨rb, sh, w, a1, a2, a3, a4, a5, a6, a7, a8, a9, a10⟩ := edgeAttrs_spec hc hx hi
  obtain ⟨rb', sh', w', b1, b2, b3, b4, b5, b6, b7, b8, b9, b10⟩ := edgeAttrs_spec hc hx' (hi'.trans hi)
  rw [hy] at a10
  cases a10
  have hO := (C39_orthogonal ⟨1, p⟩ hR).1
  have hr : Tr (DR R) rb rb' := by
    refine tr_scalars hR a1.inv b1.inv (by rw [a2]; simp) (by rw [a2, b2]) (by rw [a3, b3]) ?_
    rw [a4, b4]
    refine List.map_congr_left fun b _ => ?_
    funext e
    rw [hp, dist3_rot hO]
  have hs : Tr (DR R) sh sh' := by
    refine Tr.of_blocks (act_DR R) a5.inv b5.inv (by rw [a6, b6]) (by rw [a7, b7]) ?_
    rw [a8, b8, shBlocks, shBlocks, List.map_map]
    refine List.map_congr_left fun ir hir => ?_
    have hirp : ir.p = p.pow ir.l := by
      unfold expand at hir
      obtain ⟨m, hm, h⟩ := List.mem_flatMap.mp hir
      obtain ⟨-, rfl⟩ := List.mem_replicate.mp h
      simp only [shIrreps, List.mem_map] at hm
      obtain ⟨l, -, rfl⟩ := hm
      rfl
    simp only [Function.comp, TB]
    rw [Prod.mk.injEq]
    refine ⟨rfl, ?_⟩
    show _ = matVec (matRows (dMatrix ir R)) _
    rw [matVec_ofFn]
    congr 1
    funext k e
    rw [hp, point_rot true hO, Y_equivariant c.shNorm p hR, ← hirp]
    simp [Matrix.mulVec, dotProduct]
  obtain ⟨u, u1, u2⟩ := tr_concatenate (xs := [rb, sh]) (xs' := [rb', sh']) (.cons hr (.cons hs .nil)) a9
  rw [b9] at u1
  cases u1
  exact ⟨w', b10, u2⟩

/-! ### the messages -/

theorem realCtx_map {K L : Type} [CommRing K] [Algebra ℝ K] [CommRing L] [Algebra ℝ L] (φ : K →ₐ[ℝ] L) : TP.CtxMap φ.toRingHom (realCtx K) (realCtx L) := by
  refine ⟨fun l1 l2 l3 => ?_, fun q => ?_⟩
  · simp [realCtx, List.map_ofFn, Function.comp_def]
  · simp [realCtx]

theorem mp_messages {c : Cfg} (hn : c.n ≠ .other) (i : ε' → ε) {a f y : IArr (ε → ℝ)} {a' f' : IArr (ε' → ℝ)} (ha : Mp (pull i) a a') (hf : Mp (pull i) f f')
    (hy : messages c a f = .ok y) : ∃ y', messages c a' f' = .ok y' ∧ Mp (pull i) y y' := by
  unfold messages at hy ⊢
  cases h1 : f.filter (some (.irs (c.target.map MulIrrep.ir))) none none with
  | error e => rw [h1] at hy; cases hy
  | ok m1 =>
    obtain ⟨m1', p1, q1⟩ := mp_filter (map_zero _) hf h1
    simp only [h1, p1, bind, Except.bind] at hy ⊢
    cases h2 : a.filter none (some (.irs [⟨0, .e⟩])) none with
    | error e => rw [h2] at hy; cases hy
    | ok ea =>
      obtain ⟨ea', p2, q2⟩ := mp_filter (map_zero _) ha h2
      simp only [h2, p2] at hy ⊢
      cases h3 : TP.tensorProduct (realCtx (ε → ℝ)) c.n (some (c.target.map MulIrrep.ir)) true f ea with
      | error e => rw [h3] at hy; cases hy
      | ok m2 =>
        obtain ⟨m2', p3, q3⟩ := TP.mp_tensorProduct (φ := (pull i).toRingHom) (realCtx_shape _).ok (realCtx_shape _).ok (realCtx_map (pull i)) hn _ true hf q2 h3
        simp only [h3, p3] at hy ⊢
        cases h4 : concatenate [m1, m2] with
        | error e => rw [h4] at hy; cases hy
        | ok m =>
          obtain ⟨m', p4, q4⟩ := mp_concatenate (φ := pull i) (xs' := [m1', m2']) (.cons q1 (.cons q3 .nil)) h4
          simp only [h4, p4] at hy ⊢
          exact mp_regroup (map_zero _) q4 hy

theorem tr_messages {c : Cfg} (hn : c.n ≠ .other) {R : Matrix (Fin 3) (Fin 3) ℝ} (hR : IsOrth R) {a f y a' f' : IArr (ε → ℝ)} (ha : Tr (DR R) a a') (hf : Tr (DR R) f f')
    (hy : messages c a f = .ok y) : ∃ y', messages c a' f' = .ok y' ∧ Tr (DR R) y y' := by
  unfold messages at hy ⊢
  have hD := act_DR (ι := ε) R
  cases h1 : f.filter (some (.irs (c.target.map MulIrrep.ir))) none none with
  | error e => rw [h1] at hy; cases hy
  | ok m1 =>
    obtain ⟨m1', p1, q1⟩ := tr_filter hD hf h1
    simp only [h1, p1, bind, Except.bind] at hy ⊢
    cases h2 : a.filter none (some (.irs [⟨0, .e⟩])) none with
    | error e => rw [h2] at hy; cases hy
    | ok ea =>
      obtain ⟨ea', p2, q2⟩ := tr_filter hD ha h2
      simp only [h2, p2] at hy ⊢
      cases h3 : TP.tensorProduct (realCtx (ε → ℝ)) c.n (some (c.target.map MulIrrep.ir)) true f ea with
      | error e => rw [h3] at hy; cases hy
      | ok m2 =>
        have hf' := hf
        rw [DR_eq] at hf' q2
        obtain ⟨m2', p3, q3⟩ := TP.tr_tensorProduct (realCtx_shape (ε → ℝ)).ok (linAct_ring (map_family fun ir => Wig.dMatrix ir R))
          ((realCtx_intertwines hR).inter (realCtx_shape _) (map_family fun ir => Wig.dMatrix ir R)) hn _ true hf' q2 h3
        rw [← DR_eq] at q3
        simp only [h3, p3] at hy ⊢
        cases h4 : concatenate [m1, m2] with
        | error e => rw [h4] at hy; cases hy
        | ok m =>
          obtain ⟨m', p4, q4⟩ := tr_concatenate (xs' := [m1', m2']) (.cons q1 (.cons q3 .nil)) h4
          simp only [h4, p4] at hy ⊢
          exact tr_regroup hD q4 hy

/-! ### the radial weights -/

theorem callCols_pull (i : ε' → ε) (ptsN : List ℝ) (c : MLP.Cfg) (P : MLP.Params) (x : List (ε → ℝ)) :
    MLP.callCols ptsN c P (x.map (pull i)) = (MLP.callCols ptsN c P x).map fun l => l.map (pull i) := by
  unfold MLP.callCols
  rw [List.length_map]
  cases MLP.callArray ptsN c P (List.replicate x.length 0) with
  | error e => rfl
  | ok y0 =>
    simp only [Except.map, List.map_map]
    rfl

theorem mp_callAxisM (i : ε' → ε) (ptsN : List ℝ) (c : MLP.Cfg) (P : MLP.Params) {x y : IArr (ε → ℝ)} {x' : IArr (ε' → ℝ)} (h : Mp (pull i) x x')
    (hy : MLP.callAxis ptsN c P x = .ok y) : ∃ y', MLP.callAxis ptsN c P x' = .ok y' ∧ Mp (pull i) y y' := by
  unfold MLP.callAxis at hy ⊢
  rw [h.irreps, h.array, callCols_pull]
  split_ifs at hy ⊢
  cases h1 : MLP.callCols ptsN c P x.array with
  | error e => rw [h1] at hy; cases hy
  | ok l =>
    simp only [h1, Except.map] at hy ⊢
    have hd : ∀ {κ : Type} (l : List (κ → ℝ)), l.length = Irreps.dim [⟨l.length, ⟨0, .e⟩⟩] := fun l => by simp [Irreps.dim, Irrep.dim]
    obtain ⟨u1, u2⟩ := make_noflags (hd l)
    obtain ⟨w1, w2⟩ := make_noflags (hd (l.map (pull i)))
    unfold ofArray at hy ⊢
    rw [u1] at hy
    cases hy
    refine ⟨_, w1, u2, w2, by simp, by simp [IArr.zeroFlags], rfl⟩

theorem mp_radialWeights (c : Cfg) (P : Params) (i : ε' → ε) {a m y : IArr (ε → ℝ)} {a' m' : IArr (ε' → ℝ)} (ha : Mp (pull i) a a') (hm : Mp (pull i) m m')
    (hy : radialWeights c P a m = .ok y) : ∃ y', radialWeights c P a' m' = .ok y' ∧ Mp (pull i) y y' := by
  unfold radialWeights at hy ⊢
  cases h1 : a.filter (some (.irs [⟨0, .e⟩])) none none with
  | error e => rw [h1] at hy; cases hy
  | ok s =>
    obtain ⟨s', p1, q1⟩ := mp_filter (map_zero _) ha h1
    simp only [h1, p1, bind, Except.bind, hm.irreps] at hy ⊢
    exact mp_callAxisM i _ _ _ q1 hy

/-- The scalars of two arrays related by a rotation are the same. -/
theorem tr_radialWeights (c : Cfg) (P : Params) {R : Matrix (Fin 3) (Fin 3) ℝ} (hR : IsOrth R) {a m y a' m' : IArr (ε → ℝ)} (ha : Tr (DR R) a a') (hm : Tr (DR R) m m')
    (hy : radialWeights c P a m = .ok y) : radialWeights c P a' m' = .ok y ∧ Tr (DR R) y y := by
  have hD := act_DR (ι := ε) R
  unfold radialWeights at hy ⊢
  cases h1 : a.filter (some (.irs [⟨0, .e⟩])) none none with
  | error e => rw [h1] at hy; cases hy
  | ok s =>
    obtain ⟨s', p1, q1⟩ := tr_filter hD ha h1
    simp only [h1, p1, bind, Except.bind, hm.irreps] at hy ⊢
    unfold MLP.callAxis at hy ⊢
    have hs : s.irreps.isScalar = true := by
      by_contra hs
      rw [if_pos (by simpa using hs)] at hy
      cases hy
    have h0 := (MLP.isScalar_iff _).mp hs
    have he : s'.array = s.array := by
      have := tr_scalars hR q1.inv q1.inv h0.2 rfl rfl rfl
      exact (q1.unique this).2.1
    rw [q1.irreps, he]
    refine ⟨hy, ?_⟩
    simp only [hs, Bool.not_true, Bool.false_eq_true, if_false] at hy
    cases h2 : MLP.callCols c.pts (mlp c m.irreps.numIrreps) P.mlp s.array with
    | error e => rw [h2] at hy; cases hy
    | ok l =>
      simp only [h2] at hy
      obtain ⟨u1, u2⟩ := make_noflags (α := ε → ℝ) (ms := [⟨l.length, ⟨0, .e⟩⟩]) (a := l) (by simp [Irreps.dim, Irrep.dim])
      unfold ofArray at hy
      rw [u1] at hy
      cases hy
      exact tr_scalars hR u2 u2 (by simp) rfl rfl rfl

theorem mp_mulArrays {n : IrNorm} (hn : n ≠ .other) (i : ε' → ε) {x w y : IArr (ε → ℝ)} {x' w' : IArr (ε' → ℝ)} (hx : Mp (pull i) x x') (hw : Mp (pull i) w w')
    (hy : mulArrays n x w = .ok y) : ∃ y', mulArrays n x' w' = .ok y' ∧ Mp (pull i) y y' := by
  unfold mulArrays at hy ⊢
  by_cases h1 : x.irreps.numIrreps ≠ w.irreps.numIrreps
  · rw [if_pos h1] at hy; cases hy
  rw [if_neg h1] at hy
  rw [if_neg (by rw [hx.irreps, hw.irreps]; exact h1)]
  cases hz : TP.elementwise (realCtx (Col ε)) n none x w with
  | error e => rw [hz] at hy; cases hy
  | ok z =>
    rw [hz] at hy
    simp only [bind, Except.bind] at hy
    obtain ⟨z', a1, a2⟩ := TP.mp_elementwise (φ := (pull i).toRingHom) (realCtx_shape (ε → ℝ)).ok (realCtx_shape (ε' → ℝ)).ok (realCtx_map (pull i)) hn none hx hw hz
    rw [show TP.elementwise (realCtx (Col ε')) n none x' w' = .ok z' from a1]
    simp only [bind, Except.bind]
    by_cases h2 : z.irreps.numIrreps ≠ x.irreps.numIrreps
    · rw [if_pos h2] at hy; cases hy
    rw [if_neg h2] at hy
    rw [if_neg (by rw [a2.irreps, hx.irreps]; exact h2)]
    injection hy with hy
    subst hy
    exact ⟨z', rfl, a2⟩

/-! ### the whole -/

/-- The messages with their weights, before the sum. -/
noncomputable def weighted (c : Cfg) (P : Params) (vectors f : IArr (ε → ℝ)) : Except PyErr (IArr (ε → ℝ)) := do
  let attrs ← edgeAttrs c vectors
  let m ← messages c attrs f
  let w ← radialWeights c P attrs m
  Activ.mulArrays c.n m w

theorem weighted_steps {c : Cfg} {P : Params} {v f y : IArr (ε → ℝ)} (hy : weighted c P v f = .ok y) :
    ∃ a m w, edgeAttrs c v = .ok a ∧ messages c a f = .ok m ∧ radialWeights c P a m = .ok w ∧ Activ.mulArrays c.n m w = .ok y := by
  unfold weighted at hy
  cases h1 : edgeAttrs c v with
  | error e => rw [h1] at hy; cases hy
  | ok a =>
    simp only [h1, bind, Except.bind] at hy
    cases h2 : messages c a f with
    | error e => rw [h2] at hy; cases hy
    | ok m =>
      simp only [h2] at hy
      cases h3 : radialWeights c P a m with
      | error e => rw [h3] at hy; cases hy
      | ok w =>
        simp only [h3] at hy
        exact ⟨a, m, w, rfl, h2, h3, hy⟩

theorem weighted_of_steps {c : Cfg} {P : Params} {v f y a m w : IArr (ε → ℝ)} (h1 : edgeAttrs c v = .ok a) (h2 : messages c a f = .ok m) (h3 : radialWeights c P a m = .ok w)
    (h4 : Activ.mulArrays c.n m w = .ok y) : weighted c P v f = .ok y := by
  simp only [weighted, h1, h2, h3, h4, bind, Except.bind]

theorem mp_weighted {c : Cfg} (hn : c.n ≠ .other) (hc : ShOk c) (P : Params) (i : ε' → ε) {v f y : IArr (ε → ℝ)} {v' f' : IArr (ε' → ℝ)} (hv : v.Coherent) (hv' : v'.Coherent)
    (hi : v'.irreps = v.irreps) (h : ∀ e, pts v' e = pts v (i e)) (hf : Mp (pull i) f f') (hy : weighted c P v f = .ok y) : ∃ y', weighted c P v' f' = .ok y' ∧ Mp (pull i) y y' := by
  obtain ⟨a, m, w, h1, h2, h3, h4⟩ := weighted_steps hy
  obtain ⟨a', p1, q1⟩ := mp_edgeAttrs hc i hv hv' hi h h1
  obtain ⟨m', p2, q2⟩ := mp_messages hn i q1 hf h2
  obtain ⟨w', p3, q3⟩ := mp_radialWeights c P i q1 q2 h3
  obtain ⟨y', p4, q4⟩ := mp_mulArrays hn i q2 q3 h4
  exact ⟨y', weighted_of_steps p1 p2 p3 p4, q4⟩

theorem tr_weighted {c : Cfg} (hn : c.n ≠ .other) (hc : ShOk c) (P : Params) {R : Matrix (Fin 3) (Fin 3) ℝ} (hR : IsOrth R) {p : Parity} {v v' f f' y : IArr (ε → ℝ)}
    (hx : v.Coherent) (hx' : v'.Coherent) (hi : v.irreps = [⟨1, ⟨1, p⟩⟩]) (hi' : v'.irreps = v.irreps) (hp : ∀ e, pts v' e = (dMatrix ⟨1, p⟩ R).mulVec (pts v e))
    (hf : Tr (DR R) f f') (hy : weighted c P v f = .ok y) : ∃ y', weighted c P v' f' = .ok y' ∧ Tr (DR R) y y' := by
  obtain ⟨a, m, w, h1, h2, h3, h4⟩ := weighted_steps hy
  obtain ⟨a', p1, q1⟩ := tr_edgeAttrs hc hR hx hx' hi hi' hp h1
  obtain ⟨m', p2, q2⟩ := tr_messages hn hR q1 hf h2
  obtain ⟨p3, q3⟩ := tr_radialWeights c P hR q1 q2 h3
  obtain ⟨y', p4, q4⟩ := tr_mulArrays hn hR q2 q3 h4
  exact ⟨y', weighted_of_steps p1 p2 p3 p4, q4⟩

/-- The vectors of the edges. -/
noncomputable def vectors (s r : ε → ν) (pos : IArr (ν → ℝ)) : Except PyErr (IArr (ε → ℝ)) := do
  let pr ← gather r pos
  let ps ← gather s pos
  pr.sub ps

theorem vectors_spec (s r : ε → ν) {pos : IArr (ν → ℝ)} (hp : Inv pos) :
    ∃ v, vectors s r pos = .ok v ∧ Inv v ∧ v.irreps = pos.irreps ∧ (∀ e, pts v e = pts pos (r e) - pts pos (s e)) := by
  obtain ⟨a, a1, a2⟩ := gather_mp r hp
  obtain ⟨b, b1, b2⟩ := gather_mp s hp
  obtain ⟨v, v1, v2, v3, v4⟩ := sub_spec a2.inv' b2.inv' (by rw [a2.irreps, b2.irreps])
  refine ⟨v, by simp only [vectors, a1, b1, v1, bind, Except.bind], v2, by rw [v3, a2.irreps], fun e => ?_⟩
  funext j
  simp only [Pi.sub_apply]
  unfold pts
  rw [v4, a2.array, b2.array, List.zipWith_map, List.getD_eq_getElem?_getD, List.getD_eq_getElem?_getD, List.getElem?_zipWith]
  cases pos.array[(j : ℕ)]? with
  | none => simp
  | some col => rfl

theorem call_steps [Fintype ε] {c : Cfg} {P : Params} {s r : ε → ν} {pos feats y : IArr (ν → ℝ)} (hy : call c P s r pos feats = .ok y) :
    ∃ v up f m z t u, vectors s r pos = .ok v ∧ LinM.callAxis (ν → ℝ) (linear c feats.irreps) P.up feats = .ok up ∧ gather s up = .ok f ∧
      weighted c P v f = .ok m ∧ IArr.zeros m.irreps = .ok z ∧ scatterAdd r z m = .ok t ∧ t.scale (fun col v => col v / Real.sqrt c.avg) = .ok u ∧
      LinM.callAxis (ν → ℝ) (linear c c.target) P.down u = .ok y := by
  unfold call at hy
  cases h1 : gather r pos with
  | error e => rw [h1] at hy; cases hy
  | ok pr =>
    simp only [h1, bind, Except.bind] at hy
    cases h2 : gather s pos with
    | error e => rw [h2] at hy; cases hy
    | ok ps =>
      simp only [h2] at hy
      cases h3 : pr.sub ps with
      | error e => rw [h3] at hy; cases hy
      | ok v =>
        simp only [h3] at hy
        cases h4 : edgeAttrs c v with
        | error e => rw [h4] at hy; cases hy
        | ok a =>
          simp only [h4] at hy
          cases h5 : LinM.callAxis (ν → ℝ) (linear c feats.irreps) P.up feats with
          | error e => rw [h5] at hy; cases hy
          | ok up =>
            simp only [h5] at hy
            cases h6 : gather s up with
            | error e => rw [h6] at hy; cases hy
            | ok f =>
              simp only [h6] at hy
              cases h7 : messages c a f with
              | error e => rw [h7] at hy; cases hy
              | ok m =>
                simp only [h7] at hy
                cases h8 : radialWeights c P a m with
                | error e => rw [h8] at hy; cases hy
                | ok w =>
                  simp only [h8] at hy
                  cases h9 : Activ.mulArrays c.n m w with
                  | error e => rw [h9] at hy; cases hy
                  | ok q =>
                    simp only [h9] at hy
                    cases h10 : IArr.zeros (α := ν → ℝ) q.irreps with
                    | error e => rw [h10] at hy; cases hy
                    | ok z =>
                      simp only [h10] at hy
                      cases h11 : scatterAdd r z q with
                      | error e => rw [h11] at hy; cases hy
                      | ok t =>
                        simp only [h11] at hy
                        cases h12 : t.scale (fun col v => col v / Real.sqrt c.avg) with
                        | error e => rw [h12] at hy; cases hy
                        | ok u =>
                          simp only [h12] at hy
                          exact ⟨v, up, f, q, z, t, u, by simp only [vectors, h1, h2, h3, bind, Except.bind], rfl, h6, weighted_of_steps h4 h7 h8 h9, h10, h11, h12, hy⟩

theorem call_of_steps [Fintype ε] {c : Cfg} {P : Params} {s r : ε → ν} {pos feats y : IArr (ν → ℝ)} {v f m : IArr (ε → ℝ)} {up z t u : IArr (ν → ℝ)}
    (h1 : vectors s r pos = .ok v) (h2 : LinM.callAxis (ν → ℝ) (linear c feats.irreps) P.up feats = .ok up) (h3 : gather s up = .ok f)
    (h4 : weighted c P v f = .ok m) (h5 : IArr.zeros m.irreps = .ok z) (h6 : scatterAdd r z m = .ok t) (h7 : t.scale (fun col v => col v / Real.sqrt c.avg) = .ok u)
    (h8 : LinM.callAxis (ν → ℝ) (linear c c.target) P.down u = .ok y) : call c P s r pos feats = .ok y := by
  obtain ⟨a, q, w, k1, k2, k3, k4⟩ := weighted_steps h4
  unfold vectors at h1
  cases g1 : gather r pos with
  | error e => rw [g1] at h1; cases h1
  | ok pr =>
    simp only [g1, bind, Except.bind] at h1
    cases g2 : gather s pos with
    | error e => rw [g2] at h1; cases h1
    | ok ps =>
      simp only [g2] at h1
      simp only [call, g1, g2, h1, h2, h3, k1, k2, k3, k4, h5, h6, h7, h8, bind, Except.bind]

/-- The division. -/
noncomputable def divide (ν : Type) (t : ℝ) : (ν → ℝ) →ₗ[ℝ] (ν → ℝ) where
  toFun col v := col v / t
  map_add' a b := by funext v; simp [add_div]
  map_smul' r b := by funext v; simp [mul_div_assoc]

theorem scale_mp {c : Cfg} {x y : IArr (ν → ℝ)} (hx : Inv x) (hy : x.scale (fun col v => col v / Real.sqrt c.avg) = .ok y) : Mp (divide ν (Real.sqrt c.avg)) x y := by
  unfold IArr.scale at hy
  split at hy
  · cases hy
  · obtain ⟨w, w1, w2⟩ := mp_mapCols (φ := divide ν (Real.sqrt c.avg)) (map_zero _) hx
    rw [show mapCols (fun col v => col v / Real.sqrt c.avg) x = mapCols (divide ν (Real.sqrt c.avg)) x from rfl, w1] at hy
    cases hy
    exact w2

theorem scale_ok {c : Cfg} {x y : IArr (ν → ℝ)} {x' : IArr (ν' → ℝ)} (hi : x'.irreps = x.irreps) (hx : Inv x') (hy : x.scale (fun col v => col v / Real.sqrt c.avg) = .ok y) :
    ∃ y', x'.scale (fun col v => col v / Real.sqrt c.avg) = .ok y' := by
  unfold IArr.scale at hy ⊢
  rw [hi]
  split at hy
  · cases hy
  · obtain ⟨w, w1, -⟩ := mp_mapCols (φ := divide ν' (Real.sqrt c.avg)) (map_zero _) hx
    exact ⟨w, w1⟩

end E3nn.MPC

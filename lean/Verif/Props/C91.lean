import Verif.Lemmas.MessagePassing
import Verif.Props.C22
import Verif.Props.C90

/-!
# C91: `MessagePassingConvolution`
-/

namespace E3nn.MPC
open E3nn.IArr E3nn.Wig E3nn.SH E3nn.Activ

variable {ν ε ν' ε' : Type}

/-- The position of node `v`. -/
def position (x : IArr (ν → ℝ)) (v : ν) : Fin 3 → ℝ := fun j => x.array.getD j 0 v

theorem dr_fixes {R : Matrix (Fin 3) (Fin 3) ℝ} (hR : IsOrth R) : FLin.FixesScalars (DR (ι := ν) R) := by
  intro a
  rw [DR_scalar hR]
  simp [scalarSign]

theorem dr_lin (R : Matrix (Fin 3) (Fin 3) ℝ) : FLin.LinAct (DR (ι := ν) R) := by
  rw [DR_eq]
  exact linAct_ring (map_family fun ir => dMatrix ir R)

theorem pts_transform {R : Matrix (Fin 3) (Fin 3) ℝ} {p : Parity} {x x' : IArr (ν → ℝ)} (hx : x.Coherent) (hi : x.irreps = [⟨1, ⟨1, p⟩⟩])
    (h : Tr (DR R) x x') (v : ν) : pts x' v = (dMatrix ⟨1, p⟩ R).mulVec (pts x v) := by
  obtain ⟨w, hw⟩ : ∃ w : Fin 3 → ν → ℝ, x.array = List.ofFn w := exists_ofFn (vec_length hx hi)
  have hb : x.blocks = [(⟨1, p⟩, List.ofFn w)] := by
    unfold IArr.blocks; rw [hi, hw]; simp [expand, blocksOf]
  have hx' : x'.array = List.ofFn fun i => ∑ j, dMatrix ⟨1, p⟩ R i j • w j := by
    rw [← h.inv'.array_eq_blocks, h.blocks (act_DR R), hb]
    simp only [List.map_cons, List.map_nil, TB, List.flatten_cons, List.flatten_nil, List.append_nil]
    exact matVec_ofFn (dMatrix ⟨1, p⟩ R) w
  have e1 : pts x v = fun j => w j v := by
    funext j; unfold pts; rw [hw, List.getD_eq_getElem?_getD, List.getElem?_ofFn]; simp
  funext j
  rw [e1]
  unfold pts
  rw [hx', List.getD_eq_getElem?_getD, List.getElem?_ofFn]
  simp [Matrix.mulVec, dotProduct]

/-- **C91 (equivariance).** For every graph, every orthogonal matrix `R` and every translation `t`: if the features are transformed by `R` and the positions are transformed by `R` and
moved by `t`, the result is transformed by `R`. -/
theorem C91_equivariant [Fintype ε] (c : Cfg) (hn : c.n ≠ .other) (hc : ShOk c) (P : Params) (senders receivers : ε → ν) {positions feats y : IArr (ν → ℝ)}
    (hp : positions.Coherent) (hf : feats.Coherent) {R : Matrix (Fin 3) (Fin 3) ℝ} (hR : R * R.transpose = 1) (t : Fin 3 → ℝ)
    (hy : call c P senders receivers positions feats = .ok y) :
    ∃ moved feats', positions.transformByMatrix R = .ok moved ∧ feats.transformByMatrix R = .ok feats' ∧
      ∀ positions' : IArr (ν → ℝ), positions'.Coherent → positions'.irreps = positions.irreps → (∀ v, position positions' v = position moved v + t) →
        ∃ y' y'', call c P senders receivers positions' feats' = .ok y' ∧ y.transformByMatrix R = .ok y'' ∧ y'.Equal y'' := by
  have hR' : IsOrth R := hR
  obtain ⟨moved, m1, m2⟩ := transformBy_spec (act_DR R) hp.inv
  obtain ⟨feats', f1, f2⟩ := transformBy_spec (act_DR R) hf.inv
  refine ⟨moved, feats', m1, f1, fun positions' hc' hi' hpos => ?_⟩
  obtain ⟨v, up, f, m, z, s, u, h1, h2, h3, h4, h5, h6, h7, h8⟩ := call_steps hy
  obtain ⟨w, w1, w2, w3, w4⟩ := vectors_spec senders receivers hp.inv
  rw [h1] at w1; cases w1
  obtain ⟨v', v1, v2, v3, v4⟩ := vectors_spec senders receivers hc'.inv
  obtain ⟨a, -, -, h4a, -⟩ := weighted_steps h4
  obtain ⟨p, hpv⟩ := edgeAttrs_vector h4a
  have hpp : positions.irreps = [⟨1, ⟨1, p⟩⟩] := by rw [← w3, hpv]
  have hvec : ∀ e, pts v' e = (dMatrix ⟨1, p⟩ R).mulVec (pts v e) := by
    intro e
    have key : ∀ n, pts positions' n = (dMatrix ⟨1, p⟩ R).mulVec (pts positions n) + t := fun n => by
      rw [← pts_transform hp hpp m2]; exact hpos n
    rw [v4, w4, key, key, Matrix.mulVec_sub]
    abel
  obtain ⟨up', k1, k2⟩ := LinM.tr_callAxis (dr_lin R) (dr_fixes hR') (linear c feats.irreps) rfl P.up f2 h2
  obtain ⟨f', g1, g2⟩ := gather_mp senders k2.inv'
  obtain ⟨f0, g3, g4⟩ := gather_mp senders k2.inv
  rw [h3] at g3; cases g3
  have hfe : Tr (DR R) f f' := tr_of_mp (pull senders).toLinearMap k2 g4 g2
  obtain ⟨m', n1, n2⟩ := tr_weighted hn hc P hR' w2.coherent v2.coherent hpv (by rw [v3, hi', w3]) hvec hfe h4
  have hs := scatter_irreps n2.inv h5 h6
  obtain ⟨z', z1, -⟩ := (C12_zeros_ones (α := ν → ℝ) m'.irreps).1
  obtain ⟨s', s1, s2⟩ := scatter_mp receivers n2.inv' z1
  have hts : Tr (DR R) s s' := tr_of_mp (push receivers) n2 hs s2
  have hu := scale_mp hs.inv' h7
  obtain ⟨u', u1⟩ := scale_ok hts.irreps hts.inv' h7
  have hu' := scale_mp hts.inv' u1
  have htu : Tr (DR R) u u' := tr_of_mp (divide ν (Real.sqrt c.avg)) hts hu hu'
  obtain ⟨y', y1, y2⟩ := LinM.tr_callAxis (dr_lin R) (dr_fixes hR') (linear c c.target) rfl P.down htu h8
  obtain ⟨y'', y3, y4⟩ := transformBy_spec (act_DR R) y2.inv
  refine ⟨y', y'', ?_, y3, y2.unique y4⟩
  exact call_of_steps v1 (by rw [f2.irreps]; exact k1) g1 n1 z1 s1 u1 y1

/-- The value at one node, as a homomorphism of algebras. -/
def at' (v : ν) : (ν → ℝ) →ₐ[ℝ] ℝ := Pi.evalAlgHom ℝ (fun _ => ℝ) v

open Classical in
/-- **C91 (locality).** Let `(i, j)` be a map of graphs, from the nodes and edges of a second graph to those of the first.  The value of the result at a node `v` of the second graph is the
value at `i v`, as soon as `j` is a bijection from the edges that arrive at `v` to those that arrive at `i v`. -/
theorem C91_local [Fintype ε] [Fintype ε'] (c : Cfg) (hn : c.n ≠ .other) (hc : ShOk c) (P : Params) {s r : ε → ν} {s' r' : ε' → ν'} {i : ν' → ν} {j : ε' → ε}
    (hs : ∀ e, s (j e) = i (s' e)) (hr : ∀ e, r (j e) = i (r' e))
    {positions feats y : IArr (ν → ℝ)} (hp : positions.Coherent) (hf : feats.Coherent) (hy : call c P s r positions feats = .ok y) :
    ∃ positions' feats' y', gather i positions = .ok positions' ∧ gather i feats = .ok feats' ∧ call c P s' r' positions' feats' = .ok y' ∧
      y.Coherent ∧ y'.Coherent ∧ y'.irreps = y.irreps ∧ y'.zeroFlags = y.zeroFlags ∧
      ∀ v, (Set.BijOn j {e | r' e = v} {e | r e = i v}) → ∀ k, y'.array.getD k 0 v = y.array.getD k 0 (i v) := by
  obtain ⟨positions', p1, p2⟩ := gather_mp i hp.inv
  obtain ⟨feats', f1, f2⟩ := gather_mp i hf.inv
  obtain ⟨v, up, f, m, z, t, u, h1, h2, h3, h4, h5, h6, h7, h8⟩ := call_steps hy
  obtain ⟨w, w1, w2, w3, w4⟩ := vectors_spec s r hp.inv
  rw [h1] at w1; cases w1
  obtain ⟨v', v1, v2, v3, v4⟩ := vectors_spec s' r' p2.inv'
  have hvec : ∀ e, pts v' e = pts v (j e) := fun e => by rw [v4, w4, pts_pull i p2, pts_pull i p2, hs, hr]
  obtain ⟨up', k1, k2⟩ := LinM.mp_callAxis (pull i) (linear c feats.irreps) rfl P.up f2 h2
  obtain ⟨f', g1, g2⟩ := gather_mp s' k2.inv'
  obtain ⟨f0, g3, g4⟩ := gather_mp s k2.inv
  rw [h3] at g3; cases g3
  have hfe : Mp (pull j) f f' := Mp.square (φ := pull s) (ψ := pull j) (φ' := pull i) (ψ' := pull s')
    (fun a => by funext e; show a (s (j e)) = a (i (s' e)); rw [hs]) g4 k2 g2
  obtain ⟨m', n1, n2⟩ := mp_weighted hn hc P j w2.coherent v2.coherent (by rw [v3, w3, p2.irreps]) hvec hfe h4
  have hsc := scatter_irreps n2.inv h5 h6
  obtain ⟨z', z1, -⟩ := (C12_zeros_ones (α := ν' → ℝ) m'.irreps).1
  obtain ⟨t', t1, t2⟩ := scatter_mp r' n2.inv' z1
  have hti : t'.irreps = t.irreps := by rw [t2.irreps, n2.irreps, hsc.irreps]
  have hu := scale_mp hsc.inv' h7
  obtain ⟨u', u1⟩ := scale_ok hti t2.inv' h7
  have hu' := scale_mp t2.inv' u1
  have hui : u'.irreps = u.irreps := by rw [hu'.irreps, hti, hu.irreps]
  have huf : u'.zeroFlags = u.zeroFlags := by rw [hu'.flags, t2.flags, n2.flags, hu.flags, hsc.flags]
  -- the last layer returns
  obtain ⟨y', hy'⟩ := LinM.callAxis_returns (linear c c.target) rfl P.down hu.inv' hu'.inv' hui huf h8
  have hcall := call_of_steps v1 (by rw [f2.irreps]; exact k1) g1 n1 z1 t1 u1 hy'
  -- compare on the empty set of nodes
  have cmp : ∀ {L : Type} [CommRing L] [Algebra ℝ L] (φ : (ν → ℝ) →ₐ[ℝ] L) (φ' : (ν' → ℝ) →ₐ[ℝ] L),
      (∀ k, φ' (u'.array.getD k 0) = φ (u.array.getD k 0)) → Inv y ∧ Inv y' ∧ y'.irreps = y.irreps ∧ y'.zeroFlags = y.zeroFlags ∧ y'.array.map φ' = y.array.map φ := by
    intro L _ _ φ φ' h
    obtain ⟨b, b1, b2⟩ := mp_mapCols (φ := φ) (map_zero φ) hu.inv'
    obtain ⟨b', b1', b2'⟩ := mp_mapCols (φ := φ') (map_zero φ') hu'.inv'
    have hb : Mp (AlgHom.id ℝ L) b b' := by
      refine ⟨b2.inv', b2'.inv', by rw [b2.irreps, b2'.irreps, hui], by rw [b2.flags, b2'.flags, huf], ?_⟩
      rw [b2.array, b2'.array, List.map_map]
      have hl : u'.array.length = u.array.length := by rw [hu'.inv'.length_array, hu.inv'.length_array, hui]
      apply List.ext_getElem
      · simp [hl]
      · intro n n1 n2
        have := h n
        rw [List.getD_eq_getElem _ _ (by simpa using n1), List.getD_eq_getElem _ _ (by simpa using n2)] at this
        simpa using this
    obtain ⟨o, o1, o2⟩ := LinM.mp_callAxis φ (linear c c.target) rfl P.down b2 h8
    obtain ⟨o', o1', o2'⟩ := LinM.mp_callAxis φ' (linear c c.target) rfl P.down b2' hy'
    obtain ⟨o'', o3, o4⟩ := LinM.mp_callAxis (AlgHom.id ℝ L) (linear c c.target) rfl P.down hb o1
    rw [o1'] at o3
    cases o3
    refine ⟨o2.inv, o2'.inv, by rw [← o2'.irreps, o4.irreps, o2.irreps], by rw [← o2'.flags, o4.flags, o2.flags], ?_⟩
    rw [← o2'.array, o4.array, o2.array]
    simp
  obtain ⟨c1, c2, c3, c4, -⟩ := cmp (pull (fun e : Empty => e.elim)) (pull fun e : Empty => e.elim) fun k => Subsingleton.elim _ _
  refine ⟨positions', feats', y', p1, f1, hcall, c1.coherent, c2.coherent, c3, c4, fun n hb k => ?_⟩
  obtain ⟨-, -, -, -, hm⟩ := cmp (at' (i n)) (at' n) fun k => by
    have e1 : ∀ k, (u.array.getD k 0) (i n) = (∑ e ∈ Finset.univ.filter (fun e => r e = i n), m.array.getD k 0 e) / Real.sqrt c.avg := by
      intro k
      rw [hu.array, hsc.array, List.map_map, List.getD_eq_getElem?_getD, List.getD_eq_getElem?_getD, List.getElem?_map]
      cases m.array[k]? with
      | none => simp
      | some col => rfl
    have e2 : ∀ k, (u'.array.getD k 0) n = (∑ e ∈ Finset.univ.filter (fun e => r' e = n), m.array.getD k 0 (j e)) / Real.sqrt c.avg := by
      intro k
      rw [hu'.array, t2.array, n2.array, List.map_map, List.map_map, List.getD_eq_getElem?_getD, List.getD_eq_getElem?_getD, List.getElem?_map]
      cases m.array[k]? with
      | none => simp
      | some col => rfl
    show (u'.array.getD k 0) n = (u.array.getD k 0) (i n)
    rw [e1, e2]
    congr 1
    refine Finset.sum_bij (fun e _ => j e) ?_ ?_ ?_ ?_
    · intro e he
      have := hb.mapsTo (show e ∈ {e | r' e = n} by simpa using he)
      simpa using this
    · intro e he e' he' h
      exact hb.injOn (by simpa using he) (by simpa using he') h
    · intro e he
      obtain ⟨e', h1, h2⟩ := hb.surjOn (show e ∈ {e | r e = i n} by simpa using he)
      exact ⟨e', by simpa using h1, h2⟩
    · intro e _; rfl
  have := congrArg (fun l : List ℝ => l.getD k 0) hm
  simp only [List.getD_eq_getElem?_getD, List.getElem?_map] at this ⊢
  have hl : y'.array.length = y.array.length := by rw [c2.length_array, c1.length_array, c3]
  by_cases hk : k < y.array.length
  · rw [List.getElem?_eq_getElem hk, List.getElem?_eq_getElem (by rw [hl]; exact hk)] at this ⊢
    exact this
  · rw [List.getElem?_eq_none (by omega), List.getElem?_eq_none (by omega)]
    rfl

/-! ### when the module returns -/

theorem callAxis_total {K : Type} [CommRing K] [Algebra ℝ K] (c : LinM.Cfg) (hi : c.instructions = none) (hi' : c.irrepsIn = none) {P : LinM.Params} (hP : LinM.Shaped .vanilla P)
    {x : IArr K} (hx : Inv x) : ∃ z y, LinM.prepInput c x = .ok z ∧ LinM.callAxis K c P x = .ok y ∧ Inv y ∧ y.irreps = LinM.finalOut c z.irreps := by
  obtain ⟨z, z1, z2⟩ := LinM.prepInput_spec c hx.coherent
  obtain ⟨f, hf, f1, f2⟩ := C28_init_returns z.irreps (LinM.layerOut c z.irreps) (some c.biases) c.a c.g
  simp only [Option.elim] at hf
  obtain ⟨-, -, f3⟩ := LinM.name_mem hf
  have f3' : ∀ ins ∈ f.instructions, FLin.size ins = LinM.entries (LinM.nameOf f.irrepsIn f.irrepsOut ins) := by rw [f1, f2]; exact f3
  have hm := FLin.mapM_ok _ fun ins hins => LinM.weight_eq (f := f) c.g hP (s := .vanilla) trivial (f3' ins hins)
  have hw := LinM.mapM_get (fun a w => LinM.weight_length a w) hm
  have hg := FLin.init_good hf (by simp)
  obtain ⟨r, u, -, -, -, -, u1, u2, u3, -⟩ := FLin.call_spec (LinM.over_good (K := K) hg) z2.1.inv (by rw [show (f.over K).irrepsIn = f.irrepsIn from rfl, f1]) (LinM.over_weights hw)
  obtain ⟨y, y1, y2, y3, -⟩ := LinM.finish_spec (c := c) (irreps := z.irreps) u2.coherent (by rw [u3, ← f2]; rfl)
  exact ⟨z, y, z1, LinM.callAxis_of_steps z1 (LinM.outIrreps_eq c z.irreps) (LinM.validate_ok hi (fun i h => by rw [hi'] at h; cases h) false) (by rw [hi]; exact hf) hm u1 y1, y2.inv, y3⟩

/-- The number of messages: for every copy of an irrep among the features, the copy itself if it is a target, and every product with a spherical harmonic that is a target. -/
def messageCount (c : Cfg) (p : Parity) (irs : List Irrep) : ℕ :=
  (irs.map fun ir => (if ir ∈ c.target.map MulIrrep.ir then 1 else 0) +
    ((List.range c.lmax).map fun l => ((ir.mul ⟨l + 1, p.pow (l + 1)⟩).filter fun o => decide (o ∈ c.target.map MulIrrep.ir)).length).sum).sum

theorem expand_filter (f : Irrep → Bool) : ∀ x : Irreps, expand (x.filter fun m => f m.ir) = (expand x).filter f
  | [] => rfl
  | m :: x => by
    have ih := expand_filter f x
    by_cases h : f m.ir = true
    · rw [List.filter_cons_of_pos (by simpa using h)]
      simp only [expand, List.flatMap_cons] at ih ⊢
      rw [ih, List.filter_append, List.filter_replicate, if_pos h]
    · rw [List.filter_cons_of_neg (by simpa using h)]
      simp only [expand, List.flatMap_cons] at ih ⊢
      rw [ih, List.filter_append, List.filter_replicate, if_neg h, List.nil_append]

theorem attrs_irreps {c : Cfg} {p : Parity} {rb sh : IArr (ε → ℝ)} (h1 : rb.irreps = [⟨c.radial.length, ⟨0, .e⟩⟩]) (h2 : sh.irreps = shIrreps c p) {a : IArr (ε → ℝ)}
    (ha : a.irreps = rb.irreps ++ sh.irreps) :
    (a.irreps.filter fun m => decide (m.ir ∉ [(⟨0, .e⟩ : Irrep)])) = shIrreps c p ∧ (a.irreps.filter fun m => decide (m.ir ∈ [(⟨0, .e⟩ : Irrep)])) = [⟨c.radial.length, ⟨0, .e⟩⟩] := by
  have h : ∀ m ∈ shIrreps c p, m.ir ∉ [(⟨0, .e⟩ : Irrep)] := by
    intro m hm
    simp only [shIrreps, List.mem_map] at hm
    obtain ⟨l, ⟨k, -, rfl⟩, rfl⟩ := hm
    simp
  rw [ha, h1, h2, List.filter_append, List.filter_append, (List.filter_eq_self (l := shIrreps c p)).mpr (by simpa using h), (List.filter_eq_nil_iff (l := shIrreps c p)).mpr (by simpa using h)]
  simp

theorem messages_total {c : Cfg} (hn : c.n ≠ .other) {p : Parity} {a f : IArr (ε → ℝ)} (ha : Inv a) (hf : Inv f)
    (hs : (a.irreps.filter fun m => decide (m.ir ∉ [(⟨0, .e⟩ : Irrep)])) = shIrreps c p) :
    ∃ m, messages c a f = .ok m ∧ Inv m ∧ (∀ q ∈ m.irreps, 0 < q.mul) ∧ m.irreps.numIrreps = messageCount c p (expand f.irreps) := by
  obtain ⟨m1, a1, a2, a3, a4⟩ := C18_filter f hf.coherent (.keep (c.target.map MulIrrep.ir))
  obtain ⟨ea, b1, b2, b3, b4⟩ := C18_filter a ha.coherent (.drop [⟨0, .e⟩])
  obtain ⟨-, -, m2, -, -, -, -, -, d1, d2, d3, -⟩ := TP.tensorProduct_spec (realCtx_shape (ε → ℝ)).ok hn (some (c.target.map MulIrrep.ir)) true hf b2.inv
  obtain ⟨m0, e1, e2, e3, e4, -⟩ := concatenate_spec (xs := [m1, m2]) (by simp) (by intro z hz; simp at hz; rcases hz with rfl | rfl; exacts [a2.inv, d2])
  obtain ⟨m, g1, g2, g3, -, -, g4⟩ := C17_regroup m0 e2.coherent
  refine ⟨m, ?_, g2.inv, ?_, ?_⟩
  · unfold filterBy at a1 b1
    simp only [messages, a1, b1, d1, e1, bind, Except.bind]
    exact g1
  · rw [Irreps.regroup_eq] at g4
    injection g4 with g4
    rw [← g4]
    exact Irreps.simplify_pos _
  · have l1 : m.irreps.numIrreps = m0.irreps.numIrreps := by
      have := g3.length_eq
      rw [Irreps.numIrreps_eq_length_expand, Irreps.numIrreps_eq_length_expand, ← blocks_irs, ← blocks_irs, List.length_map, List.length_map, this]
    rw [l1, Irreps.numIrreps_eq_length_expand, e3]
    simp only [List.map_cons, List.map_nil, List.flatten_cons, List.flatten_nil, List.append_nil]
    rw [show ∀ u v : Irreps, expand (u ++ v) = expand u ++ expand v from fun u v => by simp [expand], List.length_append, ← blocks_irs m2, List.length_map, d3.length_eq, a4]
    have l2 : ((expand f.irreps).filter fun ir => decide (ir ∈ c.target.map MulIrrep.ir)).length = ((expand f.irreps).map fun ir => if ir ∈ c.target.map MulIrrep.ir then 1 else 0).sum := by
      generalize expand f.irreps = L
      induction L with
      | nil => rfl
      | cons x L ih =>
        rw [List.filter_cons, List.map_cons, List.sum_cons]
        split_ifs <;> simp_all <;> omega
    have l3 : (TP.allProducts (realCtx (ε → ℝ)) c.n (some (c.target.map MulIrrep.ir)) f.blocks ea.blocks).length =
        ((expand f.irreps).map fun ir => ((expand (shIrreps c p)).map fun sh => ((ir.mul sh).filter fun o => decide (o ∈ c.target.map MulIrrep.ir)).length).sum).sum := by
      have hea : ea.irreps = shIrreps c p := by rw [b4, ← hs]; rfl
      rw [← blocks_irs f, ← hea, ← blocks_irs ea]
      unfold TP.allProducts
      rw [List.length_flatMap, List.map_map]
      congr 1
      refine List.map_congr_left fun b1 _ => ?_
      simp only [Function.comp]
      rw [List.length_flatMap, List.map_map]
      congr 1
      refine List.map_congr_left fun b2 _ => ?_
      simp only [Function.comp, TP.irsOut, List.length_map]
      congr 2
      funext o
      simp [List.contains_eq_mem]
    have l4 : expand (shIrreps c p) = (List.range c.lmax).map fun l => ⟨l + 1, p.pow (l + 1)⟩ := by
      unfold shIrreps expand
      generalize List.range c.lmax = L
      induction L with
      | nil => rfl
      | cons x L ih => simpa using ih
    rw [show (expand (f.irreps.filter fun m => decide ((IrCrit.keep (c.target.map MulIrrep.ir)).sat m.ir))) =
      (expand f.irreps).filter fun ir => decide (ir ∈ c.target.map MulIrrep.ir) from expand_filter (fun ir => decide (ir ∈ c.target.map MulIrrep.ir)) f.irreps, l2, l3, l4]
    unfold messageCount
    generalize expand f.irreps = L
    induction L with
    | nil => rfl
    | cons x L ih =>
      simp only [List.map_cons, List.sum_cons, List.map_map, Function.comp_def] at ih ⊢
      rw [← ih]
      omega

theorem callAxisM_total (ptsN : List ℝ) (c : MLP.Cfg) {P : MLP.Params} {x : IArr (ε → ℝ)} (hx : Inv x) {n : ℕ} (hi : x.irreps = [⟨n, ⟨0, .e⟩⟩]) (hP : MLP.Shaped c n P)
    (hn : MLP.Positive c n) : ∃ y, MLP.callAxis ptsN c P x = .ok y ∧ Inv y ∧ y.irreps = [⟨(n :: c.neurons).getLastD 0, ⟨0, .e⟩⟩] := by
  have hl : x.array.length = n := by rw [hx.length_array, hi]; simp [Irreps.dim, Irrep.dim]
  obtain ⟨a, a1, a2, -⟩ := MLP.C90_call ptsN c (P := P) (x := List.replicate x.array.length 0) (by simpa [hl] using hP) (by simpa [hl] using hn)
  have hs : x.irreps.isScalar = true := by rw [hi]; simp [Irreps.isScalar]
  unfold MLP.callAxis MLP.callCols
  rw [hs, a1]
  simp only [Bool.not_true, Bool.false_eq_true, if_false]
  generalize hL : List.map _ (List.range a.length) = L
  have hLl : L.length = a.length := by rw [← hL]; simp
  obtain ⟨y, y1, y2, y3, -⟩ := (C12_from_array (α := ε → ℝ) [⟨L.length, ⟨0, .e⟩⟩] L).1 (by simp [expand, Irrep.dim, dimOf])
  refine ⟨y, y1, y2.inv, ?_⟩
  rw [y3, hLl, a2]
  simp [hl]

theorem irsOut_scalar (ir : Irrep) : TP.irsOut none ir ⟨0, .e⟩ = [ir] := by
  unfold TP.irsOut Irrep.mul
  simp
  cases ir with
  | mk l p => cases p <;> rfl

theorem mulArrays_total {n : IrNorm} (hn : n ≠ .other) {x w : IArr (ε → ℝ)} (hx : Inv x) (hw : Inv w) (hp : ∀ m ∈ x.irreps, 0 < m.mul) {k : ℕ} (hk : k ≠ 0)
    (hxk : x.irreps.numIrreps = k) (hwk : w.irreps = [⟨k, ⟨0, .e⟩⟩]) : ∃ y, mulArrays n x w = .ok y ∧ Inv y ∧ y.irreps.numIrreps = k ∧ (expand y.irreps).Perm (expand x.irreps) := by
  have hnum : x.irreps.numIrreps = w.irreps.numIrreps := by rw [hxk, hwk]; simp [Irreps.numIrreps]
  obtain ⟨r, hr⟩ := TP.alignTwo_ok hp (y := w.irreps) (by rw [hwk]; simpa using Nat.pos_of_ne_zero hk) hnum
  obtain ⟨-, -, y, -, -, -, -, -, -, -, y1, y2, -, y3⟩ := TP.elementwise_spec (realCtx_shape (ε → ℝ)).ok hn none hx hw hnum hr
  have hl : x.blocks.length = w.blocks.length := by
    have := congrArg List.length (blocks_irs x)
    have h2 := congrArg List.length (blocks_irs w)
    rw [List.length_map, ← Irreps.numIrreps_eq_length_expand] at this h2
    omega
  have hb : ∀ b ∈ w.blocks, b.1 = ⟨0, .e⟩ := by
    intro b hb
    have : b.1 ∈ expand w.irreps := by rw [← blocks_irs]; exact List.mem_map_of_mem hb
    rw [hwk] at this
    simp [expand] at this
    exact this.2
  have he : (expand y.irreps).Perm (expand x.irreps) := by
    rw [← blocks_irs y, ← blocks_irs x]
    refine (y3.map Prod.fst).trans (.of_eq ?_)
    unfold TP.zipProducts
    generalize x.blocks = X at hl
    generalize w.blocks = W at hl hb
    clear * - hl hb
    induction X generalizing W with
    | nil => simp
    | cons a X ih =>
      cases W with
      | nil => simp at hl
      | cons b W =>
        simp only [List.zip_cons_cons, List.flatMap_cons, List.map_append, List.map_cons]
        rw [ih W (by simpa using hl) (fun c hc => hb c (List.mem_cons_of_mem _ hc)), hb b (List.mem_cons_self ..), irsOut_scalar]
        simp
  have hyk : y.irreps.numIrreps = k := by
    rw [Irreps.numIrreps_eq_length_expand, he.length_eq, ← Irreps.numIrreps_eq_length_expand, hxk]
  refine ⟨y, ?_, y2, hyk, he⟩
  unfold mulArrays
  rw [if_neg (by simpa using hnum), show TP.elementwise (realCtx (Col ε)) n none x w = .ok y from y1]
  simp only [bind, Except.bind]
  rw [if_neg (by rw [hyk, hxk]; simp)]
  rfl

theorem lmax_ok {x : Irreps} (h : x.numIrreps ≠ 0) : ∃ L, x.lmax = .ok L := by
  unfold Irreps.lmax
  split_ifs with h0
  · rw [List.eq_nil_of_length_eq_zero h0] at h
    exact absurd rfl h
  · cases hm : x.ls.max? with
    | some l => exact ⟨l, rfl⟩
    | none =>
      rw [List.max?_eq_none_iff] at hm
      have : x.ls.length = x.numIrreps := by
        unfold Irreps.ls Irreps.numIrreps
        induction x with
        | nil => rfl
        | cons m x ih => simp
      rw [hm] at this
      exact absurd this.symm h

/-- **C91 (the module returns).** For positions that are one vector, a radial basis, hidden layers that are not empty and parameters of the right shapes, the module returns an array whose irreps
are targets, unless there is no message at all. -/
theorem C91_returns [Fintype ε] (c : Cfg) (hn : c.n ≠ .other) (hc : ShOk c) (hr : c.radial ≠ []) (hne : ∀ h ∈ c.neurons, h ≠ 0) (P : Params) (hu : LinM.Shaped .vanilla P.up)
    (hd : LinM.Shaped .vanilla P.down) (s r : ε → ν) {p : Parity} {positions feats : IArr (ν → ℝ)} (hp : positions.Coherent) (hi : positions.irreps = [⟨1, ⟨1, p⟩⟩]) (hf : feats.Coherent) :
    ∃ up, LinM.callAxis (ν → ℝ) (linear c feats.irreps) P.up feats = .ok up ∧
      (MLP.Shaped (mlp c (messageCount c p (expand up.irreps))) c.radial.length P.mlp → messageCount c p (expand up.irreps) ≠ 0 →
        ∃ y, call c P s r positions feats = .ok y ∧ y.Coherent ∧ y.irreps.Sublist c.target.simplify) := by
  obtain ⟨-, up, -, u1, u2, -⟩ := callAxis_total (linear c feats.irreps) rfl rfl hu hf.inv
  refine ⟨up, u1, fun hm hk => ?_⟩
  obtain ⟨v, v1, v2, v3, -⟩ := vectors_spec s r hp.inv
  obtain ⟨f, f1, f2⟩ := gather_mp s u2
  obtain ⟨rb, sh, a, b1, b2, -, -, s1, s2, -, -, a1, a2⟩ := edgeAttrs_spec hc v2.coherent (by rw [v3, hi])
  obtain ⟨a', a3, a4, a5, -⟩ := concatenate_spec (xs := [rb, sh]) (by simp) (by intro z hz; simp at hz; rcases hz with rfl | rfl; exacts [b1.inv, s1.inv])
  rw [a1] at a3
  cases a3
  obtain ⟨k1, k2⟩ := attrs_irreps (c := c) b2 s2 (a := a) (by rw [a5]; simp)
  obtain ⟨m, m1, m2, m3, m4⟩ := messages_total hn a4 f2.inv' k1
  rw [f2.irreps] at m4
  obtain ⟨sc, c1, c2, -, c4⟩ := C18_filter a a4.coherent (.keep [⟨0, .e⟩])
  have c4' : sc.irreps = [⟨c.radial.length, ⟨0, .e⟩⟩] := by rw [c4, ← k2]; rfl
  obtain ⟨w, w1, w2, w3⟩ := callAxisM_total c.pts (mlp c m.irreps.numIrreps) c2.inv c4' (by rw [m4]; exact hm) (by
    intro i hi
    simp only [mlp, List.length_append, List.length_cons, List.length_nil] at hi ⊢
    cases i with
    | zero => simpa using hr
    | succ i =>
      rw [List.getD_cons_succ, List.getD_append _ _ _ _ (by omega), List.getD_eq_getElem _ _ (by omega)]
      exact hne _ (List.getElem_mem _))
  have hw : radialWeights c P a m = .ok w := by
    unfold filterBy at c1
    simp only [radialWeights, c1, bind, Except.bind]
    exact w1
  obtain ⟨q, q1, q2, q3, -⟩ := mulArrays_total hn m2 w2 m3 (k := m.irreps.numIrreps) (by rw [m4]; exact hk) rfl (by rw [w3]; simp only [mlp]; rw [← List.cons_append, List.getLastD_concat])
  obtain ⟨z, z1, -⟩ := (C12_zeros_ones (α := ν → ℝ) q.irreps).1
  obtain ⟨t, t1, t2⟩ := scatter_mp r q2 z1
  obtain ⟨g, g1, g2⟩ : ∃ g, t.scale (fun col v => col v / Real.sqrt c.avg) = .ok g ∧ Inv g := by
    obtain ⟨g, g1, g2⟩ := mp_mapCols (φ := divide ν (Real.sqrt c.avg)) (map_zero _) t2.inv'
    refine ⟨g, ?_, g2.inv'⟩
    have hl : ∃ L, q.irreps.lmax = .ok L := lmax_ok (by rw [q3, m4]; exact hk)
    obtain ⟨L, hl⟩ := hl
    unfold IArr.scale
    rw [t2.irreps, hl]
    exact g1
  obtain ⟨d, y, -, y1, y2, y3⟩ := callAxis_total (linear c c.target) rfl rfl hd g2
  refine ⟨y, call_of_steps v1 u1 f1 (weighted_of_steps a2 m1 hw q1) z1 t1 g1 y1, y2.coherent, ?_⟩
  rw [y3]
  simp only [LinM.finalOut, LinM.layerOut, linear, Bool.false_eq_true, if_false, if_true]
  exact List.filter_sublist

/-- **C91 (refused inputs).** The positions have to be one vector. -/
theorem C91_refuse [Fintype ε] (c : Cfg) (P : Params) (s r : ε → ν) {positions feats : IArr (ν → ℝ)} (hp : positions.Coherent) (hi : ∀ p, positions.irreps ≠ [⟨1, ⟨1, p⟩⟩]) :
    ∃ e, call c P s r positions feats = .error e := by
  cases h : call c P s r positions feats with
  | error e => exact ⟨e, rfl⟩
  | ok y =>
    obtain ⟨v, up, f, m, z, t, u, h1, h2, h3, h4, -⟩ := call_steps h
    obtain ⟨w, w1, -, w3, -⟩ := vectors_spec s r hp.inv
    rw [h1] at w1; cases w1
    obtain ⟨a, -, -, h4a, -⟩ := weighted_steps h4
    obtain ⟨p, hpv⟩ := edgeAttrs_vector h4a
    exact absurd (by rw [← w3, hpv]) (hi p)

/-- **C91 (order of nodes and edges).** Renumbering the nodes and the edges renumbers the result. -/
theorem C91_relabel [Fintype ε] [Fintype ε'] (c : Cfg) (hn : c.n ≠ .other) (hc : ShOk c) (P : Params) {s r : ε → ν} (i : ν' ≃ ν) (j : ε' ≃ ε)
    {positions feats y : IArr (ν → ℝ)} (hp : positions.Coherent) (hf : feats.Coherent) (hy : call c P s r positions feats = .ok y) :
    ∃ positions' feats' y' z, gather i positions = .ok positions' ∧ gather i feats = .ok feats' ∧
      call c P (i.symm ∘ s ∘ j) (i.symm ∘ r ∘ j) positions' feats' = .ok y' ∧ gather i y = .ok z ∧ y'.Equal z := by
  classical
  obtain ⟨positions', feats', y', h1, h2, h3, h0, h4, h5, h6, h7⟩ := C91_local c hn hc P (s := s) (r := r) (s' := i.symm ∘ s ∘ j) (r' := i.symm ∘ r ∘ j) (i := i) (j := j)
    (fun e => by simp) (fun e => by simp) hp hf hy
  obtain ⟨z, z1, z2⟩ := gather_mp i h0.inv
  refine ⟨positions', feats', y', z, h1, h2, h3, z1, ?_⟩
  have hm : Mp (pull i) y y' := by
    refine ⟨h0.inv, h4.inv, h5, h6, ?_⟩
    have hl : y'.array.length = y.array.length := by rw [h4.inv.length_array, h0.inv.length_array, h5]
    apply List.ext_getElem
    · simp [hl]
    · intro n n1 n2
      funext v
      have := h7 v ⟨fun e he => by simpa using congrArg i he, fun e _ e' _ h => j.injective h, fun e he => ⟨j.symm e, by
        have : r e = i v := he
        simp [this], by simp⟩⟩ n
      rw [List.getD_eq_getElem _ _ n1, List.getD_eq_getElem _ _ (by omega)] at this
      rw [this, List.getElem_map]
      rfl
  exact hm.unique z2

/-- Two nodes and one edge, a scalar feature, targets `0e + 1o`: there are two messages per edge and the module returns. -/
example : ∃ (c : Cfg) (P : Params) (positions feats y : IArr (Fin 2 → ℝ)), c.n ≠ .other ∧ ShOk c ∧ positions.Coherent ∧ feats.Coherent ∧ c.target.length = 2 ∧
    call c P (fun _ : Fin 1 => (0 : Fin 2)) (fun _ => 1) positions feats = .ok y := by
  let c : Cfg := ⟨[⟨1, ⟨0, .e⟩⟩, ⟨1, ⟨1, .o⟩⟩], [fun r => r], 1, 1, [2], Real.exp, .component, 1, 1, 1, [], none, .component⟩
  obtain ⟨pos, p1, p2, p3, -⟩ := (C12_from_array (α := Fin 2 → ℝ) [⟨1, ⟨1, .o⟩⟩] [fun v => v, fun _ => 1, fun _ => 2]).1 (by decide)
  let feats : IArr (Fin 2 → ℝ) := ⟨[⟨1, ⟨0, .e⟩⟩], [fun _ => 1], none, none⟩
  have hf : feats.Coherent := by
    have := (make_noflags (α := Fin 2 → ℝ) (ms := [⟨1, ⟨0, .e⟩⟩]) (a := [fun _ => 1]) (by decide)).2
    exact this.coherent
  have hS : LinM.Shaped .vanilla fun q => List.replicate (LinM.entries q) 1 := fun q => by simp
  let P : Params := ⟨fun q => List.replicate (LinM.entries q) 1, fun i => match i with | 0 => ⟨[[1, 2]], []⟩ | _ => ⟨[[1, 3], [2, 1]], []⟩, fun q => List.replicate (LinM.entries q) 1⟩
  have hc : ShOk c := fun a ha => by cases ha
  obtain ⟨z, up, z1, u1, -, u3⟩ := callAxis_total (linear c feats.irreps) rfl rfl hS hf.inv
  obtain ⟨up', h1, h2⟩ := C91_returns c (by decide) hc (by simp [c]) (by simp [c]) P hS hS (fun _ : Fin 1 => (0 : Fin 2)) (fun _ => 1) p2 p3 hf
  rw [u1] at h1
  cases h1
  obtain ⟨z', z1', -, -, z2⟩ := LinM.prepInput_spec (linear c feats.irreps) hf
  rw [z1] at z1'
  cases z1'
  have hz : z.irreps = [⟨1, ⟨0, .e⟩⟩] := by
    have := (z2 rfl).1
    rw [show (LinM.live feats).map Prod.fst = [⟨1, ⟨0, .e⟩⟩] from rfl, Irreps.regroup_eq] at this
    rw [← Except.ok.inj this]
    decide +kernel
  have hup : up.irreps = [⟨1, ⟨0, .e⟩⟩] := by rw [u3, hz]; rfl
  have hk : messageCount c .o (expand up.irreps) = 2 := by rw [hup]; decide
  rw [hk] at h2
  obtain ⟨y, y1, -⟩ := h2 (by
    intro i hi
    have : i = 0 ∨ i = 1 := by simp [mlp, c] at hi; omega
    rcases this with rfl | rfl <;> simp [MLP.Fits, mlp, c, P]) (by decide)
  exact ⟨c, P, pos, feats, y, by decide, hc, p2, hf, rfl, y1⟩

end E3nn.MPC

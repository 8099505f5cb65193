import Verif.Lemmas.TransformerHeads

/-! # Lemmas for `Transformer` -/

namespace E3nn.Transf
open E3nn.IArr E3nn.Wig E3nn.Activ E3nn.MPC

variable {ν ε ν' ε' : Type}

theorem bind_ok {α β : Type} {m : Except PyErr α} {f : α → Except PyErr β} {y : β} (h : (do let a ← m; f a) = .ok y) : ∃ a, m = .ok a ∧ f a = .ok y := by
  cases m with
  | error e => cases h
  | ok a => exact ⟨a, rfl, h⟩

theorem ok_bind {α β : Type} {m : Except PyErr α} {f : α → Except PyErr β} {a : α} (h : m = .ok a) : (do let a ← m; f a) = f a := by
  rw [h]; rfl

/-! ### positive multiplicities -/

theorem alignLoop_pos (fuel : ℕ) (l k : Irreps) (hl : ∀ m ∈ l, 0 < m.mul) (hk : ∀ m ∈ k, 0 < m.mul) : ∀ m ∈ (TP.alignLoop fuel l k).1, 0 < m.mul := by
  induction fuel generalizing l k with
  | zero => exact hl
  | succ fuel ih =>
    cases l with
    | nil => simp [TP.alignLoop]
    | cons m1 l =>
      cases k with
      | nil => simpa [TP.alignLoop] using hl
      | cons m2 k =>
        have hl' : ∀ m ∈ l, 0 < m.mul := fun m hm => hl m (by simp [hm])
        have hk' : ∀ m ∈ k, 0 < m.mul := fun m hm => hk m (by simp [hm])
        have h1 := hl m1 (by simp)
        have h2 := hk m2 (by simp)
        simp only [TP.alignLoop]
        split_ifs with c1 c2
        · intro m hm
          rcases List.mem_cons.mp hm with rfl | hm
          · exact h1
          · refine ih l _ hl' ?_ m hm
            intro q hq
            rcases List.mem_cons.mp hq with rfl | hq
            · simp only; omega
            · exact hk' q hq
        · intro m hm
          rcases List.mem_cons.mp hm with rfl | hm
          · exact h2
          · refine ih _ k ?_ hk' m hm
            intro q hq
            rcases List.mem_cons.mp hq with rfl | hq
            · simp only; omega
            · exact hl' q hq
        · intro m hm
          rcases List.mem_cons.mp hm with rfl | hm
          · exact h1
          · exact ih l k hl' hk' m hm

theorem mulArrays_pos {n : IrNorm} (hn : n ≠ .other) {x w y : IArr (ε → ℝ)} (hx : Inv x) (hw : Inv w) (hp : ∀ m ∈ x.irreps, 0 < m.mul) {k : ℕ} (hk : w.irreps = [⟨k, ⟨0, .e⟩⟩])
    (hy : mulArrays n x w = .ok y) : Inv y ∧ (∀ m ∈ y.irreps, 0 < m.mul) := by
  unfold mulArrays at hy
  split_ifs at hy with hnum
  obtain ⟨z, z1, z2⟩ := bind_ok hy
  split_ifs at z2 with hz
  cases z2
  obtain ⟨h1, r, hr⟩ := TP.elementwise_align z1
  obtain ⟨u, v, y', -, u1, v1, u2, v2, -, -, y1, y2, y3, -⟩ := TP.elementwise_spec (realCtx_shape (ε → ℝ)).ok hn none hx hw h1 hr
  rw [show TP.elementwise (realCtx (Col ε)) n none x w = TP.elementwise (realCtx (ε → ℝ)) n none x w from rfl, y1] at z1
  cases z1
  have hk0 : k ≠ 0 := by
    rintro rfl
    have hx0 : x.irreps = [] := by
      by_contra hne
      obtain ⟨m, hm⟩ := List.exists_mem_of_ne_nil _ hne
      have h3 := hp m hm
      have h4 : m.mul ≤ x.irreps.numIrreps := List.single_le_sum (by simp) _ (List.mem_map_of_mem (f := MulIrrep.mul) hm)
      rw [h1, hk] at h4
      simp [Irreps.numIrreps] at h4
      omega
    rw [hx0, hk] at hr
    simp [TP.alignTwo, TP.alignLoop, Irreps.numIrreps] at hr
  have hr1 : ∀ m ∈ r.1, 0 < m.mul := by
    unfold TP.alignTwo at hr
    split_ifs at hr
    simp only at hr
    split_ifs at hr
    cases hr
    exact alignLoop_pos _ _ _ hp (by rw [hk]; simpa using Nat.pos_of_ne_zero hk0)
  refine ⟨y2, fun m hm => ?_⟩
  rw [← y2.pairs.2.1, y3] at hm
  unfold TP.elEntries at hm
  simp only [List.mem_map, List.mem_flatMap] at hm
  obtain ⟨q, ⟨t, ⟨pq, hpq, ir, -, rfl⟩, rfl⟩, rfl⟩ := hm
  simp only [TP.pathVal]
  have := (List.of_mem_zip (List.of_mem_zip hpq).1).1
  rw [u2] at this
  exact hr1 _ this

/-! ### the two branches -/

/-- The weights are those of a convolution. -/
def conv (c : Cfg) : MPC.Cfg := ⟨c.out, [], 1, 0, c.neurons, c.act, c.n, c.a, c.g, c.gm, c.pts, none, .component⟩

theorem weights_conv (c : Cfg) (P : MLP.Params) (y o : IArr (ε → ℝ)) : weights c P y o = radialWeights (conv c) ⟨fun _ => [], P, fun _ => []⟩ y o := rfl

theorem products_steps {c : Cfg} {keep : Irreps} {x a o : IArr (ε → ℝ)} (h : products c keep x a = .ok o) :
    ∃ ya t u v, a.filter none (some (.irs [⟨0, .e⟩])) none = .ok ya ∧ TP.tensorProduct (realCtx (ε → ℝ)) c.n none true x ya = .ok t ∧ concatenate [x, t] = .ok u ∧
      u.regroup = .ok v ∧ v.filter (some (.irs (keep.map MulIrrep.ir))) none none = .ok o := by
  unfold products at h
  obtain ⟨ya, h1, h⟩ := bind_ok h
  obtain ⟨t, h2, h⟩ := bind_ok h
  obtain ⟨u, h3, h⟩ := bind_ok h
  obtain ⟨v, h4, h⟩ := bind_ok h
  exact ⟨ya, t, u, v, h1, h2, h3, h4, h⟩

theorem products_of_steps {c : Cfg} {keep : Irreps} {x a o ya t u v : IArr (ε → ℝ)} (h1 : a.filter none (some (.irs [⟨0, .e⟩])) none = .ok ya)
    (h2 : TP.tensorProduct (realCtx (ε → ℝ)) c.n none true x ya = .ok t) (h3 : concatenate [x, t] = .ok u)
    (h4 : u.regroup = .ok v) (h5 : v.filter (some (.irs (keep.map MulIrrep.ir))) none none = .ok o) : products c keep x a = .ok o := by
  simp only [products, h1, h2, h3, h4, h5, bind, Except.bind]

theorem branch_steps {c : Cfg} {keep : Irreps} {P : MLP.Params} {x a y : IArr (ε → ℝ)} (h : branch c keep P x a = .ok y) :
    ∃ o w, products c keep x a = .ok o ∧ weights c P a o = .ok w ∧ mulArrays c.n o w = .ok y := by
  unfold branch at h
  obtain ⟨o, h1, h⟩ := bind_ok h
  obtain ⟨w, h2, h⟩ := bind_ok h
  exact ⟨o, w, h1, h2, h⟩

theorem branch_of_steps {c : Cfg} {keep : Irreps} {P : MLP.Params} {x a y o w : IArr (ε → ℝ)} (h1 : products c keep x a = .ok o) (h2 : weights c P a o = .ok w)
    (h3 : mulArrays c.n o w = .ok y) : branch c keep P x a = .ok y := by
  simp only [branch, h1, h2, h3, bind, Except.bind]

theorem mp_tp {n : IrNorm} (hn : n ≠ .other) (i : ε' → ε) (filter : Option (List Irrep)) {x y t : IArr (ε → ℝ)} {x' y' : IArr (ε' → ℝ)} (hx : Mp (pull i) x x') (hy : Mp (pull i) y y')
    (h : TP.tensorProduct (realCtx (ε → ℝ)) n filter true x y = .ok t) : ∃ t', TP.tensorProduct (realCtx (ε' → ℝ)) n filter true x' y' = .ok t' ∧ Mp (pull i) t t' :=
  TP.mp_tensorProduct (φ := (pull i).toRingHom) (realCtx_shape (ε → ℝ)).ok (realCtx_shape (ε' → ℝ)).ok (realCtx_map (pull i)) hn filter true hx hy h

theorem tr_tp {n : IrNorm} (hn : n ≠ .other) {R : Matrix (Fin 3) (Fin 3) ℝ} (hR : IsOrth R) (filter : Option (List Irrep)) {x y t x' y' : IArr (ε → ℝ)} (hx : Tr (DR R) x x') (hy : Tr (DR R) y y')
    (h : TP.tensorProduct (realCtx (ε → ℝ)) n filter true x y = .ok t) : ∃ t', TP.tensorProduct (realCtx (ε → ℝ)) n filter true x' y' = .ok t' ∧ Tr (DR R) t t' := by
  rw [DR_eq] at hx hy ⊢
  exact TP.tr_tensorProduct (realCtx_shape (ε → ℝ)).ok (linAct_ring (map_family fun ir => Wig.dMatrix ir R))
    ((realCtx_intertwines hR).inter (realCtx_shape _) (map_family fun ir => Wig.dMatrix ir R)) hn filter true hx hy h

theorem mp_branch {c : Cfg} (hn : c.n ≠ .other) (keep : Irreps) (P : MLP.Params) (i : ε' → ε) {x a y : IArr (ε → ℝ)} {x' a' : IArr (ε' → ℝ)} (hx : Mp (pull i) x x') (ha : Mp (pull i) a a')
    (h : branch c keep P x a = .ok y) : ∃ y', branch c keep P x' a' = .ok y' ∧ Mp (pull i) y y' := by
  obtain ⟨o, w, h1, h2, h3⟩ := branch_steps h
  obtain ⟨ya, t, u, v, k1, k2, k3, k4, k5⟩ := products_steps h1
  obtain ⟨ya', p1, q1⟩ := mp_filter (map_zero _) ha k1
  obtain ⟨t', p2, q2⟩ := mp_tp hn i none hx q1 k2
  obtain ⟨u', p3, q3⟩ := mp_concatenate (xs' := [x', t']) (.cons hx (.cons q2 .nil)) k3
  obtain ⟨v', p4, q4⟩ := mp_regroup (map_zero _) q3 k4
  obtain ⟨o', p5, q5⟩ := mp_filter (map_zero _) q4 k5
  obtain ⟨w', p6, q6⟩ := mp_radialWeights (conv c) ⟨fun _ => [], P, fun _ => []⟩ i ha q5 h2
  obtain ⟨y', p7, q7⟩ := mp_mulArrays hn i q5 q6 h3
  exact ⟨y', branch_of_steps (products_of_steps p1 p2 p3 p4 p5) p6 p7, q7⟩

theorem tr_branch {c : Cfg} (hn : c.n ≠ .other) (keep : Irreps) (P : MLP.Params) {R : Matrix (Fin 3) (Fin 3) ℝ} (hR : IsOrth R) {x a y x' a' : IArr (ε → ℝ)} (hx : Tr (DR R) x x')
    (ha : Tr (DR R) a a') (h : branch c keep P x a = .ok y) : ∃ y', branch c keep P x' a' = .ok y' ∧ Tr (DR R) y y' := by
  have hD := act_DR (ι := ε) R
  obtain ⟨o, w, h1, h2, h3⟩ := branch_steps h
  obtain ⟨ya, t, u, v, k1, k2, k3, k4, k5⟩ := products_steps h1
  obtain ⟨ya', p1, q1⟩ := tr_filter hD ha k1
  obtain ⟨t', p2, q2⟩ := tr_tp hn hR none hx q1 k2
  obtain ⟨u', p3, q3⟩ := tr_concatenate (xs' := [x', t']) (.cons hx (.cons q2 .nil)) k3
  obtain ⟨v', p4, q4⟩ := tr_regroup hD q3 k4
  obtain ⟨o', p5, q5⟩ := tr_filter hD q4 k5
  obtain ⟨p6, q6⟩ := tr_radialWeights (conv c) ⟨fun _ => [], P, fun _ => []⟩ hR ha q5 h2
  obtain ⟨y', p7, q7⟩ := tr_mulArrays hn hR q5 q6 h3
  exact ⟨y', branch_of_steps (products_of_steps p1 p2 p3 p4 p5) p6 p7, q7⟩

/-- The multiplicities of `out1` are positive. -/
theorem products_pos {c : Cfg} (hn : c.n ≠ .other) {keep : Irreps} {x a o : IArr (ε → ℝ)} (hx : Inv x) (ha : Inv a) (h : products c keep x a = .ok o) :
    Inv o ∧ ∀ m ∈ o.irreps, 0 < m.mul := by
  obtain ⟨ya, t, u, v, k1, k2, k3, k4, k5⟩ := products_steps h
  obtain ⟨ya', a1, a2, -⟩ := C18_filter a ha.coherent (.drop [⟨0, .e⟩])
  simp only [filterBy] at a1
  rw [k1] at a1
  cases a1
  obtain ⟨-, -, t', -, -, -, -, -, t1, t2, -⟩ := TP.tensorProduct_spec (realCtx_shape (ε → ℝ)).ok hn none true hx a2.inv
  rw [k2] at t1
  cases t1
  obtain ⟨u', u1, u2, -⟩ := concatenate_spec (xs := [x, t]) (by simp) (by intro z hz; simp at hz; rcases hz with rfl | rfl; exacts [hx, t2])
  rw [k3] at u1
  cases u1
  obtain ⟨v', v1, v2, -, -, -, v4⟩ := C17_regroup u u2.coherent
  rw [k4] at v1
  cases v1
  have hv : ∀ m ∈ v.irreps, 0 < m.mul := by
    rw [Irreps.regroup_eq] at v4
    injection v4 with v4
    rw [← v4]
    exact Irreps.simplify_pos _
  obtain ⟨o', o1, o2, -, o4⟩ := C18_filter v v2 (.keep (keep.map MulIrrep.ir))
  simp only [filterBy] at o1
  rw [k5] at o1
  cases o1
  refine ⟨o2.inv, fun m hm => hv m ?_⟩
  rw [o4] at hm
  exact (List.mem_filter.mp hm).1

theorem branch_pos {c : Cfg} (hn : c.n ≠ .other) {keep : Irreps} {P : MLP.Params} {x a y : IArr (ε → ℝ)} (hx : Inv x) (ha : Inv a) (h : branch c keep P x a = .ok y) :
    Inv y ∧ ∀ m ∈ y.irreps, 0 < m.mul := by
  obtain ⟨o, w, h1, h2, h3⟩ := branch_steps h
  obtain ⟨o1, o2⟩ := products_pos hn hx ha h1
  unfold weights at h2
  obtain ⟨s, s1, h2⟩ := bind_ok h2
  unfold MLP.callAxis at h2
  split_ifs at h2
  cases hl : MLP.callCols c.pts (mlp c o.irreps.numIrreps) P s.array with
  | error e => rw [hl] at h2; cases h2
  | ok l =>
    rw [hl] at h2
    obtain ⟨u1, u2⟩ := make_noflags (α := ε → ℝ) (ms := [⟨l.length, ⟨0, .e⟩⟩]) (a := l) (by simp [Irreps.dim, Irrep.dim])
    simp only [ofArray] at h2
    rw [u1] at h2
    cases h2
    exact mulArrays_pos hn o1 u2 o2 rfl h3

/-! ### the logits -/

theorem callAxis_irreps {K : Type} [CommRing K] [Algebra ℝ K] (c : LinM.Cfg) (hi : c.instructions = none) {P : LinM.Params} {x y : IArr K} (hx : Inv x)
    (hy : LinM.callAxis K c P x = .ok y) : Inv y ∧ ∃ z : IArr K, y.irreps = LinM.finalOut c z.irreps := by
  obtain ⟨z, out, f, ws, u, h1, h2, h3, h4, h5, h6, h7⟩ := LinM.callAxis_steps hy
  obtain ⟨z', z1, z2⟩ := LinM.prepInput_spec c hx.coherent
  rw [h1] at z1
  cases z1
  have hG := FLin.init_good h4 fun ps hps => by rw [hi] at hps; cases hps
  have hw := LinM.mapM_get (fun a w => LinM.weight_length a w) h5
  have hfi : f.irrepsIn = z.irreps := by obtain ⟨-, -, -, -, rfl⟩ := FLin.init_ok h4; rfl
  have hfo : f.irrepsOut = out := by obtain ⟨-, -, -, -, rfl⟩ := FLin.init_ok h4; rfl
  obtain ⟨r1, u1, a1, a2, a3, a4, a5, a6, a7, -⟩ := FLin.call_spec (LinM.over_good (K := K) hG) z2.1.inv (by rw [show (f.over K).irrepsIn = f.irrepsIn from rfl, hfi]) (LinM.over_weights hw)
  rw [h6] at a5
  cases a5
  rw [LinM.outIrreps_eq] at h2
  cases h2
  obtain ⟨y', y1, y2, y3, -⟩ := LinM.finish_spec (c := c) (irreps := z.irreps) a6.coherent (by rw [a7, ← hfo]; rfl)
  rw [h7] at y1
  cases y1
  exact ⟨y2.inv, z, y3⟩

theorem logits_steps {c : Cfg} {P : Params} {keep : Irreps} {xs xd a : IArr (ε → ℝ)} {L : List (ε → ℝ)} (h : logits c P keep xs xd a = .ok L) :
    ∃ k t l, branch c keep P.key xs a = .ok k ∧ TP.tensorProduct (realCtx (ε → ℝ)) c.n (some [⟨0, .e⟩]) true xd k = .ok t ∧
      LinM.callAxis (ε → ℝ) (linear c [⟨c.heads, ⟨0, .e⟩⟩]) P.logit t = .ok l ∧ L = l.array := by
  unfold logits at h
  obtain ⟨k, h1, h⟩ := bind_ok h
  obtain ⟨t, h2, h⟩ := bind_ok h
  obtain ⟨l, h3, h⟩ := bind_ok h
  cases h
  exact ⟨k, t, l, h1, h2, h3, rfl⟩

theorem mp_logits {c : Cfg} (hn : c.n ≠ .other) (P : Params) (keep : Irreps) (i : ε' → ε) {xs xd a : IArr (ε → ℝ)} {xs' xd' a' : IArr (ε' → ℝ)} (hs : Mp (pull i) xs xs')
    (hd : Mp (pull i) xd xd') (ha : Mp (pull i) a a') {L : List (ε → ℝ)} (h : logits c P keep xs xd a = .ok L) : logits c P keep xs' xd' a' = .ok (L.map (pull i)) := by
  obtain ⟨k, t, l, h1, h2, h3, rfl⟩ := logits_steps h
  obtain ⟨k', p1, q1⟩ := mp_branch hn keep P.key i hs ha h1
  obtain ⟨t', p2, q2⟩ := mp_tp hn i _ hd q1 h2
  obtain ⟨l', p3, q3⟩ := LinM.mp_callAxis (pull i) (linear c [⟨c.heads, ⟨0, .e⟩⟩]) rfl P.logit q2 h3
  simp only [logits, p1, p2, p3, bind, Except.bind, q3.array]
  rfl

theorem tr_logits {c : Cfg} (hn : c.n ≠ .other) (P : Params) (keep : Irreps) {R : Matrix (Fin 3) (Fin 3) ℝ} (hR : IsOrth R) {xs xd a xs' xd' a' : IArr (ε → ℝ)} (hs : Tr (DR R) xs xs')
    (hd : Tr (DR R) xd xd') (ha : Tr (DR R) a a') {L : List (ε → ℝ)} (h : logits c P keep xs xd a = .ok L) : logits c P keep xs' xd' a' = .ok L := by
  obtain ⟨k, t, l, h1, h2, h3, rfl⟩ := logits_steps h
  obtain ⟨k', p1, q1⟩ := tr_branch hn keep P.key hR hs ha h1
  obtain ⟨t', p2, q2⟩ := tr_tp hn hR _ hd q1 h2
  obtain ⟨l', p3, q3⟩ := LinM.tr_callAxis (dr_lin R) (dr_fixes hR) (linear c [⟨c.heads, ⟨0, .e⟩⟩]) rfl P.logit q2 h3
  obtain ⟨-, z, hz⟩ := callAxis_irreps (linear c [⟨c.heads, ⟨0, .e⟩⟩]) rfl q2.inv h3
  have h0 : ∀ m ∈ l.irreps, m.ir = ⟨0, .e⟩ := by
    rw [hz]
    intro m hm
    simp only [LinM.finalOut, LinM.layerOut, linear, Bool.false_eq_true, if_false, if_true, List.mem_filter] at hm
    have := mem_expand_of_pos hm.1 (Irreps.simplify_pos _ m hm.1)
    rw [Irreps.expand_simplify] at this
    simp [expand] at this
    exact this.2
  have he : l'.array = l.array := (q3.unique (tr_scalars hR q3.inv q3.inv h0 rfl rfl rfl)).2.1
  simp only [logits, p1, p2, p3, bind, Except.bind, he]
  rfl

/-! ### the sum over the edges -/

theorem scatterSum_spec [Fintype ε] (dst : ε → ν) {x : IArr (ε → ℝ)} (hx : Inv x) :
    ∃ y, scatterSum dst x = .ok y ∧ Inv y ∧ y.irreps = x.irreps ∧ y.zeroFlags = List.replicate x.irreps.length false ∧ y.array = x.array.map (push dst) ∧
      y.blocks = x.blocks.map fun b => (b.1, b.2.map (push dst)) := by
  have hl : (x.array.map (push dst)).length = x.irreps.dim := by rw [List.length_map, hx.length_array]
  obtain ⟨u1, u2⟩ := make_noflags (α := ν → ℝ) (ms := x.irreps) (a := x.array.map (push dst)) hl
  refine ⟨_, u1, u2, rfl, rfl, rfl, ?_⟩
  obtain ⟨w, -, w2⟩ := mp_mapCols (φ := push dst) (map_zero _) hx
  have : (⟨x.irreps, x.array.map (push dst), none, none⟩ : IArr (ν → ℝ)).blocks = w.blocks := by
    unfold IArr.blocks
    rw [w2.irreps, w2.array]
  rw [this, w2.blocks]

end E3nn.Transf

import Verif.Lemmas.Transformer2

/-!
# C100: `Transformer`
-/

namespace E3nn.Transf
open E3nn.IArr E3nn.Wig E3nn.Activ E3nn.MPC

variable {ν ε ν' ε' : Type}

/-- **C100 (equivariance).** For every graph, all cutoff weights and every orthogonal matrix `R`: if the features of the nodes and the attributes of the edges are transformed by `R`, the result is
transformed by `R`. -/
theorem C100_equivariant [Fintype ε] (c : Cfg) (hn : c.n ≠ .other) (P : Params) (src dst : ε → ν) (cutoff : ε → ℝ) {attr : IArr (ε → ℝ)} {feats y : IArr (ν → ℝ)} (ha : attr.Coherent)
    (hf : feats.Coherent) {R : Matrix (Fin 3) (Fin 3) ℝ} (hR : R * R.transpose = 1) (hy : call c P src dst cutoff attr feats = .ok y) :
    ∃ attr' feats' y' y'', attr.transformByMatrix R = .ok attr' ∧ feats.transformByMatrix R = .ok feats' ∧ call c P src dst cutoff attr' feats' = .ok y' ∧
      y.transformByMatrix R = .ok y'' ∧ y'.Equal y'' := by
  have hR' : IsOrth R := hR
  obtain ⟨attr', a1, a2⟩ := transformBy_spec (act_DR R) ha.inv
  obtain ⟨feats', f1, f2⟩ := transformBy_spec (act_DR R) hf.inv
  obtain ⟨xs, xd, L, v, w, u, h1, h2, h3, h4, h5, h6, h7, h8⟩ := call_steps hy
  obtain ⟨s0, g1, g2⟩ := gather_mp src f2.inv
  rw [h1] at g1; cases g1
  obtain ⟨d0, k1, k2⟩ := gather_mp dst f2.inv
  rw [h2] at k1; cases k1
  obtain ⟨xs', g3, g4⟩ := gather_mp src f2.inv'
  obtain ⟨xd', k3, k4⟩ := gather_mp dst f2.inv'
  have hs : Tr (DR R) xs xs' := tr_of_mp (pull src).toLinearMap f2 g2 g4
  have hd : Tr (DR R) xd xd' := tr_of_mp (pull dst).toLinearMap f2 k2 k4
  have hL := tr_logits hn P feats.irreps hR' hs hd a2 h3
  obtain ⟨v', v1, v2⟩ := tr_branch hn c.out P.val hR' hs a2 h5
  obtain ⟨-, hpos⟩ := branch_pos hn hs.inv a2.inv h5
  have hsp := weightHeads_splits hpos v2.inv h6
  obtain ⟨w0, p1, p2, p3, p4⟩ := weightHeads_spec hn (fun k : Fin c.heads => headWeight dst cutoff L k) v2.inv hsp
  rw [h6] at p1; cases p1
  obtain ⟨w', q1, q2, q3, q4⟩ := weightHeads_spec hn (fun k : Fin c.heads => headWeight dst cutoff L k) v2.inv' (by rw [v2.irreps]; exact hsp)
  obtain ⟨u0, r1, r2, r3, r4, -, r5⟩ := scatterSum_spec dst p2
  rw [h7] at r1; cases r1
  obtain ⟨u', t1, t2, t3, t4, -, t5⟩ := scatterSum_spec dst q2
  have hu : Tr (DR R) u u' := by
    refine Tr.of_blocks (act_DR R) r2 t2 (by rw [t3, q3, r3, p3, v2.irreps]) (by rw [t4, q3, r4, p3, v2.irreps]) ?_
    rw [t5, q4, r5, p4, v2.irreps, v2.blocks (act_DR R), List.map_map, List.map_zipWith, List.zipWith_map_left, List.map_zipWith]
    congr 1
    funext b k
    simp only [TB, Function.comp]
    rw [matVec_map, matVec_map]
  obtain ⟨y', y1, y2⟩ := LinM.tr_callAxis (dr_lin R) (dr_fixes hR') (linear c c.out) rfl P.last hu h8
  obtain ⟨y'', y3, y4⟩ := transformBy_spec (act_DR R) y2.inv
  exact ⟨attr', feats', y', y'', a1, f1, call_of_steps g3 k3 (by rw [f2.irreps]; exact hL) h4 v1 q1 t1 y1, y3, y2.unique y4⟩

/-- The values at one node, for two graphs related by a map `(i, j)` and two attention functions that agree where it matters. -/
theorem local_aux [Fintype ε] [Fintype ε'] (c : Cfg) (hn : c.n ≠ .other) (P : Params) {s r : ε → ν} {s' r' : ε' → ν'} {i : ν' → ν} {j : ε' → ε}
    (hs : ∀ e, s (j e) = i (s' e)) (hr : ∀ e, r (j e) = i (r' e)) (cutoff : ε → ℝ)
    {attr : IArr (ε → ℝ)} {feats y : IArr (ν → ℝ)} {attr' : IArr (ε' → ℝ)} {feats' : IArr (ν' → ℝ)} (a2 : Mp (pull j) attr attr') (f2 : Mp (pull i) feats feats')
    (hy : call c P s r cutoff attr feats = .ok y) :
    ∃ y', call c P s' r' (cutoff ∘ j) attr' feats' = .ok y' ∧
      y.Coherent ∧ y'.Coherent ∧ y'.irreps = y.irreps ∧ y'.zeroFlags = y.zeroFlags ∧
      ∀ v, Set.InjOn j {e | r' e = v} → (∀ e, r e = i v → e ∉ j '' {e | r' e = v} → cutoff e = 0) →
        (∀ logit e, r' e = v → alpha r' (cutoff ∘ j) (logit ∘ j) e = alpha r cutoff logit (j e)) → ∀ k, y'.array.getD k 0 v = y.array.getD k 0 (i v) := by
  obtain ⟨xs, xd, L, v, w, u, h1, h2, h3, h4, h5, h6, h7, h8⟩ := call_steps hy
  obtain ⟨s0, g1, g2⟩ := gather_mp s f2.inv
  rw [h1] at g1; cases g1
  obtain ⟨d0, k1, k2⟩ := gather_mp r f2.inv
  rw [h2] at k1; cases k1
  obtain ⟨xs', g3, g4⟩ := gather_mp s' f2.inv'
  obtain ⟨xd', k3, k4⟩ := gather_mp r' f2.inv'
  have hxs : Mp (pull j) xs xs' := Mp.square (φ := pull s) (ψ := pull j) (φ' := pull i) (ψ' := pull s')
    (fun a => by funext e; show a (s (j e)) = a (i (s' e)); rw [hs]) g2 f2 g4
  have hxd : Mp (pull j) xd xd' := Mp.square (φ := pull r) (ψ := pull j) (φ' := pull i) (ψ' := pull r')
    (fun a => by funext e; show a (r (j e)) = a (i (r' e)); rw [hr]) k2 f2 k4
  have hL := mp_logits hn P feats.irreps j hxs hxd a2 h3
  obtain ⟨v', v1, v2⟩ := mp_branch hn c.out P.val j hxs a2 h5
  obtain ⟨-, hpos⟩ := branch_pos hn hxs.inv a2.inv h5
  have hsp := weightHeads_splits hpos v2.inv h6
  obtain ⟨w0, p1, p2, p3, p4⟩ := weightHeads_array hn (fun k : Fin c.heads => headWeight r cutoff L k) v2.inv hsp
  rw [h6] at p1; cases p1
  obtain ⟨w', q1, q2, q3, q4⟩ := weightHeads_array hn (fun k : Fin c.heads => headWeight r' (cutoff ∘ j) (L.map (pull j)) k) v2.inv' (by rw [v2.irreps]; exact hsp)
  obtain ⟨u0, r1, r2, r3, r4, r5, -⟩ := scatterSum_spec r p2
  rw [h7] at r1; cases r1
  obtain ⟨u', t1, t2, t3, t4, t5, -⟩ := scatterSum_spec r' q2
  obtain ⟨y', y1, y2, y3, y4, y5, y6⟩ := callAxis_at (linear c c.out) rfl P.last r2 t2 (by rw [t3, q3, r3, p3, v2.irreps]) (by rw [t4, q3, r4, p3, v2.irreps]) h8
  refine ⟨y', call_of_steps g3 k3 (by rw [f2.irreps]; exact hL) (by rw [List.length_map]; exact h4) v1 q1 t1 y1, y2.coherent, y3.coherent, y4, y5, ?_⟩
  intro n hinj hz hal
  refine y6 (i n) n fun k => ?_
  classical
  have hpush : ∀ {κ μ : Type} [Fintype κ] (d : κ → μ) (l : List (κ → ℝ)) (m : μ), (l.map (push d)).getD k 0 m = ∑ e ∈ arriving d m, l.getD k 0 e := by
    intro κ μ _ d l m
    rw [List.getD_eq_getElem?_getD, List.getD_eq_getElem?_getD, List.getElem?_map]
    cases l[k]? with
    | none => simp
    | some col => simp [push, arriving]
  rw [t5, r5, hpush, hpush, ← fibre_sum hr hinj]
  · refine Finset.sum_congr rfl fun e he => ?_
    have he' : r' e = n := by simpa [arriving] using he
    rw [q4, p4, v2.irreps]
    have hv : v'.array.getD k 0 e = v.array.getD k 0 (j e) := by
      rw [v2.array, List.getD_eq_getElem?_getD, List.getD_eq_getElem?_getD, List.getElem?_map]
      cases v.array[k]? <;> rfl
    rw [hv]
    congr 2
    unfold headAt
    split_ifs with hlt
    · unfold headWeight
      have hlog : (L.map (pull j)).getD ((columnHeads c.heads v.irreps).getD k 0) 0 = L.getD ((columnHeads c.heads v.irreps).getD k 0) 0 ∘ j := by
        generalize (columnHeads c.heads v.irreps).getD k 0 = q
        rw [List.getD_eq_getElem?_getD, List.getD_eq_getElem?_getD, List.getElem?_map]
        cases L[q]? <;> rfl
      simp only [hlog, hal _ e he']
    · rfl
  · intro e he hne
    rw [p4]
    have hc := hz e he hne
    unfold headAt
    split_ifs
    · simp [headWeight, alpha_zero r _ hc]
    · simp

/-- **C100 (locality).** Let `(i, j)` be a map of graphs, from the nodes and edges of a second graph to those of the first.  The value of the result at a node `v` of the second graph is the
value at `i v`, as soon as `j` is a bijection from the edges that arrive at `v` to those that arrive at `i v`. -/
theorem C100_local [Fintype ε] [Fintype ε'] (c : Cfg) (hn : c.n ≠ .other) (P : Params) {s r : ε → ν} {s' r' : ε' → ν'} {i : ν' → ν} {j : ε' → ε}
    (hs : ∀ e, s (j e) = i (s' e)) (hr : ∀ e, r (j e) = i (r' e)) (cutoff : ε → ℝ)
    {attr : IArr (ε → ℝ)} {feats y : IArr (ν → ℝ)} (ha : attr.Coherent) (hf : feats.Coherent) (hy : call c P s r cutoff attr feats = .ok y) :
    ∃ attr' feats' y', gather j attr = .ok attr' ∧ gather i feats = .ok feats' ∧ call c P s' r' (cutoff ∘ j) attr' feats' = .ok y' ∧
      y.Coherent ∧ y'.Coherent ∧ y'.irreps = y.irreps ∧ y'.zeroFlags = y.zeroFlags ∧
      ∀ v, Set.BijOn j {e | r' e = v} {e | r e = i v} → ∀ k, y'.array.getD k 0 v = y.array.getD k 0 (i v) := by
  obtain ⟨attr', h1, a2⟩ := gather_mp j ha.inv
  obtain ⟨feats', h2, f2⟩ := gather_mp i hf.inv
  obtain ⟨y', h3, h4, h5, h6, h7, h8⟩ := local_aux c hn P hs hr cutoff a2 f2 hy
  exact ⟨attr', feats', y', h1, h2, h3, h4, h5, h6, h7, fun v hb => h8 v hb.injOn (fun e he hne => absurd (hb.surjOn he) hne) fun logit e he => alpha_bij hr hb cutoff logit he⟩

/-- **C100 (cutoff).** If the cutoff weights are not negative, edges whose cutoff weight is zero can be removed from the graph without changing the result. -/
theorem C100_cutoff [Fintype ε] [Fintype ε'] (c : Cfg) (hn : c.n ≠ .other) (P : Params) (s r : ε → ν) {j : ε' → ε} (hj : Function.Injective j) {cutoff : ε → ℝ} (hc : ∀ e, 0 ≤ cutoff e)
    (hz : ∀ e, e ∉ Set.range j → cutoff e = 0) {attr : IArr (ε → ℝ)} {feats y : IArr (ν → ℝ)} (ha : attr.Coherent) (hf : feats.Coherent) (hy : call c P s r cutoff attr feats = .ok y) :
    ∃ attr' y', gather j attr = .ok attr' ∧ call c P (s ∘ j) (r ∘ j) (cutoff ∘ j) attr' feats = .ok y' ∧ y'.Equal y := by
  obtain ⟨attr', h1, a2⟩ := gather_mp j ha.inv
  have f2 : Mp (pull (id : ν → ν)) feats feats := ⟨hf.inv, hf.inv, rfl, rfl, (List.map_id feats.array).symm⟩
  obtain ⟨y', h3, h4, h5, h6, h7, h8⟩ := local_aux c hn P (s := s) (r := r) (s' := s ∘ j) (r' := r ∘ j) (i := id) (j := j) (fun _ => rfl) (fun _ => rfl) cutoff a2 f2 hy
  refine ⟨attr', y', h1, h3, ?_⟩
  have hz' : ∀ v e, r e = id v → e ∉ j '' {e | (r ∘ j) e = v} → cutoff e = 0 := by
    intro v e he hne
    refine hz e ?_
    rintro ⟨e', rfl⟩
    exact hne ⟨e', he, rfl⟩
  have hm : Mp (pull (id : ν → ν)) y y' := by
    refine ⟨h4.inv, h5.inv, h6, h7, ?_⟩
    have hl : y'.array.length = y.array.length := by rw [h5.inv.length_array, h4.inv.length_array, h6]
    apply List.ext_getElem
    · simp [hl]
    · intro n n1 n2
      funext v
      have := h8 v hj.injOn (hz' v) (fun logit e he => alpha_drop (r := r) (r' := r ∘ j) (j := j) (i := id) (fun _ => rfl) hj.injOn hc (hz' v) logit he) n
      rw [List.getD_eq_getElem _ _ n1, List.getD_eq_getElem _ _ (by omega)] at this
      rw [this, List.getElem_map]
      rfl
  have hm' : Mp (pull (id : ν → ν)) y y := ⟨h4.inv, h4.inv, rfl, rfl, (List.map_id y.array).symm⟩
  exact hm.unique hm'

/-- **C100 (order of nodes and edges).** Renumbering the nodes and the edges renumbers the result. -/
theorem C100_relabel [Fintype ε] [Fintype ε'] (c : Cfg) (hn : c.n ≠ .other) (P : Params) {s r : ε → ν} (i : ν' ≃ ν) (j : ε' ≃ ε) (cutoff : ε → ℝ)
    {attr : IArr (ε → ℝ)} {feats y : IArr (ν → ℝ)} (ha : attr.Coherent) (hf : feats.Coherent) (hy : call c P s r cutoff attr feats = .ok y) :
    ∃ attr' feats' y' z, gather j attr = .ok attr' ∧ gather i feats = .ok feats' ∧
      call c P (i.symm ∘ s ∘ j) (i.symm ∘ r ∘ j) (cutoff ∘ j) attr' feats' = .ok y' ∧ gather i y = .ok z ∧ y'.Equal z := by
  obtain ⟨attr', feats', y', h1, h2, h3, h0, h4, h5, h6, h7⟩ := C100_local c hn P (s := s) (r := r) (s' := i.symm ∘ s ∘ j) (r' := i.symm ∘ r ∘ j) (i := i) (j := j)
    (fun e => by simp) (fun e => by simp) cutoff ha hf hy
  obtain ⟨z, z1, z2⟩ := gather_mp i h0.inv
  refine ⟨attr', feats', y', z, h1, h2, h3, z1, ?_⟩
  have hm : Mp (pull i) y y' := by
    refine ⟨h0.inv, h4.inv, h5, h6, ?_⟩
    have hl : y'.array.length = y.array.length := by rw [h4.inv.length_array, h0.inv.length_array, h5]
    apply List.ext_getElem
    · simp [hl]
    · intro n n1 n2
      funext v
      have := h7 v ⟨fun e he => by simpa using congrArg i he, fun e _ e' _ h => j.injective h, fun e he => ⟨j.symm e, by
        have : r e = i v := he
        simp [this], by simp⟩⟩ n
      rw [List.getD_eq_getElem _ _ n1, List.getD_eq_getElem _ _ (by omega)] at this
      rw [this, List.getElem_map]
      rfl
  exact hm.unique z2

/-- **C100 (attention).** With cutoff weights that are not negative and the normalisations `component` or `norm`, the input `u` of the last layer is, at every node and column by column, the sum over
the arriving edges of the value `v` of the edge times the square root of the softmax of the logits of the head of the column: neither the maximum that is subtracted nor the guard
against zero shows.  The squares of the weights of one head add up to one at every node with an arriving edge of positive cutoff weight. -/
theorem C100_attention [Fintype ε] (c : Cfg) (hn : c.n = .component ∨ c.n = .norm) (P : Params) (src dst : ε → ν) {cutoff : ε → ℝ} (hc : ∀ e, 0 ≤ cutoff e)
    {attr : IArr (ε → ℝ)} {feats y : IArr (ν → ℝ)} (ha : attr.Coherent) (hf : feats.Coherent) (hy : call c P src dst cutoff attr feats = .ok y) :
    ∃ xs xd L v u, gather src feats = .ok xs ∧ gather dst feats = .ok xd ∧ logits c P feats.irreps xs xd attr = .ok L ∧ L.length = c.heads ∧ branch c c.out P.val xs attr = .ok v ∧
      u.Coherent ∧ u.irreps = v.irreps ∧ (∀ m ∈ v.irreps, c.heads ∣ m.mul) ∧ LinM.callAxis (ν → ℝ) (linear c c.out) P.last u = .ok y ∧
      (∀ k h node, (columnHeads c.heads v.irreps)[k]? = some h → h < c.heads ∧
        u.array.getD k 0 node = ∑ e ∈ arriving dst node, Real.sqrt (softmax dst cutoff (L.getD h 0) e) * v.array.getD k 0 e) ∧
      (∀ h node, (∃ e, dst e = node ∧ 0 < cutoff e) → ∑ e ∈ arriving dst node, Real.sqrt (softmax dst cutoff (L.getD h 0) e) ^ 2 = 1) := by
  have hn' : c.n ≠ .other := by rcases hn with h | h <;> rw [h] <;> decide
  obtain ⟨xs, xd, L, v, w, u, h1, h2, h3, h4, h5, h6, h7, h8⟩ := call_steps hy
  obtain ⟨s0, g1, g2⟩ := gather_mp src hf.inv
  obtain rfl : xs = s0 := Except.ok.inj (h1.symm.trans g1)
  obtain ⟨hv, hpos⟩ := branch_pos hn' g2.inv' ha.inv h5
  have hsp := weightHeads_splits hpos hv h6
  obtain ⟨w0, p1, p2, p3, p4⟩ := weightHeads_array hn' (fun k : Fin c.heads => headWeight dst cutoff L k) hv hsp
  rw [h6] at p1; cases p1
  obtain ⟨u0, r1, r2, r3, r4, r5, -⟩ := scatterSum_spec dst p2
  rw [h7] at r1; cases r1
  have hfac : headFactor c.n c.heads v.irreps = 1 := by
    unfold headFactor colFactor
    split_ifs
    · cases (v.irreps.map fun m => (⟨m.mul / c.heads, m.ir⟩ : MulIrrep)).head? with
      | none => rfl
      | some m => rcases hn with h | h <;> simp [h, gateFactor]
    · rfl
  refine ⟨xs, xd, L, v, u, h1, h2, h3, h4, h5, r2.coherent, by rw [r3, p3], hsp.div, h8, ?_, ?_⟩
  · intro k h node hk
    have hlt : h < c.heads := by
      obtain ⟨m, hm, hmem⟩ := List.mem_flatMap.mp (List.mem_of_getElem? hk)
      obtain ⟨t, ht, hmem⟩ := List.mem_flatMap.mp hmem
      obtain ⟨-, rfl⟩ := List.mem_replicate.mp hmem
      have ht' := List.mem_range.mp ht
      have hd : c.heads * (m.mul / c.heads) = m.mul := Nat.mul_div_cancel' (hsp.div m hm)
      exact Nat.div_lt_of_lt_mul (by rw [Nat.mul_comm, hd]; exact ht')
    refine ⟨hlt, ?_⟩
    classical
    rw [r5]
    have hpush : (w.array.map (push dst)).getD k 0 node = ∑ e ∈ arriving dst node, w.array.getD k 0 e := by
      rw [List.getD_eq_getElem?_getD, List.getD_eq_getElem?_getD, List.getElem?_map]
      cases w.array[k]? with
      | none => simp
      | some col => simp [push, arriving]
    rw [hpush]
    refine Finset.sum_congr rfl fun e _ => ?_
    have hk' : (columnHeads c.heads v.irreps).getD k 0 = h := by rw [List.getD_eq_getElem?_getD, hk, Option.getD_some]
    rw [p4, hfac, hk', headAt, dif_pos hlt, headWeight, alpha_softmax dst hc, max_eq_right (softmax_nonneg dst hc _ e)]
    ring
  · intro h node hv
    rw [← softmax_sum dst hc (L.getD h 0) node hv]
    exact Finset.sum_congr rfl fun e _ => Real.sq_sqrt (softmax_nonneg dst hc _ e)

end E3nn.Transf

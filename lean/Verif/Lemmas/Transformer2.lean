import Verif.Lemmas.Transformer
import Verif.Spec.Transformer

/-! # Lemmas for `Transformer`: the attention and the last layer -/

namespace E3nn.Transf
open E3nn.IArr E3nn.Wig E3nn.Activ E3nn.MPC

variable {ν ε ν' ε' : Type}

/-! ### the attention -/

theorem alpha_softmax [Fintype ε] (dst : ε → ν) {cutoff : ε → ℝ} (h : ∀ e, 0 ≤ cutoff e) (logit : ε → ℝ) (e : ε) : alpha dst cutoff logit e = softmax dst cutoff logit e := by
  classical
  unfold alpha softmax arriving
  simp only
  set m := indexMax dst logit (dst e) with hm
  have hs : (∑ e' ∈ Finset.univ.filter (fun e' => dst e' = dst e), cutoff e' * Real.exp (logit e' - indexMax dst logit (dst e'))) =
      (∑ e' ∈ Finset.univ.filter (fun e' => dst e' = dst e), cutoff e' * Real.exp (logit e')) * Real.exp (-m) := by
    rw [Finset.sum_mul]
    refine Finset.sum_congr rfl fun e' he' => ?_
    rw [(Finset.mem_filter.mp he').2, ← hm, sub_eq_add_neg, Real.exp_add]
    ring
  rw [hs]
  have hex : Real.exp (-m) ≠ 0 := (Real.exp_pos _).ne'
  by_cases h0 : (∑ e' ∈ Finset.univ.filter (fun e' => dst e' = dst e), cutoff e' * Real.exp (logit e')) = 0
  · have hz := (Finset.sum_eq_zero_iff_of_nonneg fun e' _ => mul_nonneg (h e') (Real.exp_pos _).le).mp h0 e (by simp)
    have hc : cutoff e = 0 := by
      rcases mul_eq_zero.mp hz with hc | hc
      · exact hc
      · exact absurd hc (Real.exp_pos _).ne'
    simp [hc]
  · rw [if_neg (mul_ne_zero h0 hex), sub_eq_add_neg, Real.exp_add, ← mul_assoc, mul_div_mul_right _ _ hex]

theorem softmax_nonneg [Fintype ε] (dst : ε → ν) {cutoff : ε → ℝ} (h : ∀ e, 0 ≤ cutoff e) (logit : ε → ℝ) (e : ε) : 0 ≤ softmax dst cutoff logit e :=
  div_nonneg (mul_nonneg (h e) (Real.exp_pos _).le) (Finset.sum_nonneg fun e' _ => mul_nonneg (h e') (Real.exp_pos _).le)

theorem softmax_sum [Fintype ε] (dst : ε → ν) {cutoff : ε → ℝ} (h : ∀ e, 0 ≤ cutoff e) (logit : ε → ℝ) (v : ν) (hv : ∃ e, dst e = v ∧ 0 < cutoff e) :
    ∑ e ∈ arriving dst v, softmax dst cutoff logit e = 1 := by
  classical
  obtain ⟨e, he, hc⟩ := hv
  have hpos : 0 < ∑ e' ∈ arriving dst v, cutoff e' * Real.exp (logit e') :=
    Finset.sum_pos' (fun e' _ => mul_nonneg (h e') (Real.exp_pos _).le) ⟨e, by simp [arriving, he], mul_pos hc (Real.exp_pos _)⟩
  have : ∀ e ∈ arriving dst v, softmax dst cutoff logit e = cutoff e * Real.exp (logit e) / ∑ e' ∈ arriving dst v, cutoff e' * Real.exp (logit e') := by
    intro e he
    rw [softmax, (Finset.mem_filter.mp he).2]
  rw [Finset.sum_congr rfl this, ← Finset.sum_div, div_self hpos.ne']

theorem alpha_zero [Fintype ε] (dst : ε → ν) {cutoff : ε → ℝ} (logit : ε → ℝ) {e : ε} (h : cutoff e = 0) : alpha dst cutoff logit e = 0 := by
  unfold alpha
  simp [h]

/-! ### maps of graphs -/

open Classical in
theorem fibre_sum [Fintype ε] [Fintype ε'] {r : ε → ν} {r' : ε' → ν'} {i : ν' → ν} {j : ε' → ε} (hr : ∀ e, r (j e) = i (r' e)) {v : ν'} (hinj : Set.InjOn j {e | r' e = v}) (F : ε → ℝ)
    (hz : ∀ e, r e = i v → e ∉ j '' {e | r' e = v} → F e = 0) : ∑ e ∈ arriving r' v, F (j e) = ∑ e ∈ arriving r (i v), F e := by
  rw [← Finset.sum_image (f := F) (g := j) (s := arriving r' v) (by
    intro a ha b hb h
    exact hinj (by simpa [arriving] using ha) (by simpa [arriving] using hb) h)]
  refine Finset.sum_subset ?_ ?_
  · intro e he
    obtain ⟨e', h1, rfl⟩ := Finset.mem_image.mp he
    have : r' e' = v := by simpa [arriving] using h1
    simp [arriving, hr, this]
  · intro e he hn
    refine hz e (by simpa [arriving] using he) ?_
    rintro ⟨e', h1, rfl⟩
    exact hn (Finset.mem_image.mpr ⟨e', by simpa [arriving] using h1, rfl⟩)

/-- The attention of a graph seen from a second one, when the edges that arrive correspond. -/
theorem alpha_bij [Fintype ε] [Fintype ε'] {r : ε → ν} {r' : ε' → ν'} {i : ν' → ν} {j : ε' → ε} (hr : ∀ e, r (j e) = i (r' e)) {v : ν'} (hb : Set.BijOn j {e | r' e = v} {e | r e = i v})
    (cutoff logit : ε → ℝ) {e : ε'} (he : r' e = v) : alpha r' (cutoff ∘ j) (logit ∘ j) e = alpha r cutoff logit (j e) := by
  classical
  have hset : arriving r (i v) = (arriving r' v).image j := by
    ext a
    simp only [arriving, Finset.mem_filter, Finset.mem_univ, true_and, Finset.mem_image]
    constructor
    · intro ha
      obtain ⟨a', h1, h2⟩ := hb.surjOn ha
      exact ⟨a', h1, h2⟩
    · rintro ⟨a', h1, rfl⟩
      rw [hr, h1]
  have hm : indexMax r' (logit ∘ j) v = indexMax r logit (i v) := by
    unfold indexMax
    rw [show (Finset.univ.filter fun e => r e = i v) = (arriving r' v).image j from hset, Finset.fold_image (by
      intro a ha b hb' h
      exact hb.injOn (by simpa [arriving] using ha) (by simpa [arriving] using hb') h)]
    rfl
  unfold alpha
  simp only [Function.comp]
  have hje : r (j e) = i v := by rw [hr, he]
  rw [hje, he, hm]
  have hsum : (∑ a ∈ Finset.univ.filter (fun a => r' a = v), cutoff (j a) * Real.exp (logit (j a) - indexMax r' (logit ∘ j) (r' a))) =
      ∑ a ∈ Finset.univ.filter (fun a => r a = i v), cutoff a * Real.exp (logit a - indexMax r logit (r a)) := by
    have h2 := fibre_sum hr hb.injOn (fun a => cutoff a * Real.exp (logit a - indexMax r logit (i v))) fun a ha hn => absurd (hb.surjOn ha) hn
    have h1 : (∑ a ∈ Finset.univ.filter (fun a => r' a = v), cutoff (j a) * Real.exp (logit (j a) - indexMax r' (logit ∘ j) (r' a))) =
        ∑ a ∈ arriving r' v, cutoff (j a) * Real.exp (logit (j a) - indexMax r logit (i v)) := by
      refine Finset.sum_congr rfl fun a ha => ?_
      rw [(Finset.mem_filter.mp ha).2, hm]
    rw [h1, h2]
    refine Finset.sum_congr rfl fun a ha => ?_
    rw [(Finset.mem_filter.mp ha).2]
  rw [hsum]

/-- The same with edges of cutoff weight zero missing. -/
theorem alpha_drop [Fintype ε] [Fintype ε'] {r : ε → ν} {r' : ε' → ν'} {i : ν' → ν} {j : ε' → ε} (hr : ∀ e, r (j e) = i (r' e)) {v : ν'} (hinj : Set.InjOn j {e | r' e = v})
    {cutoff : ε → ℝ} (hc : ∀ e, 0 ≤ cutoff e) (hz : ∀ e, r e = i v → e ∉ j '' {e | r' e = v} → cutoff e = 0) (logit : ε → ℝ) {e : ε'} (he : r' e = v) :
    alpha r' (cutoff ∘ j) (logit ∘ j) e = alpha r cutoff logit (j e) := by
  rw [alpha_softmax r' (cutoff := cutoff ∘ j) (fun e => hc (j e)), alpha_softmax _ hc]
  unfold softmax
  rw [hr, he, ← fibre_sum hr hinj (fun a => cutoff a * Real.exp (logit a)) fun a ha hn => by simp [hz a ha hn]]
  rfl

/-! ### the columns of the weighted messages -/

theorem zip_flatten {α : Type} {φ : ℕ → α → α} : ∀ (B : List (Irrep × List α)) (L : List ℕ),
    ((List.zipWith (fun b k => (b.1, b.2.map (φ k))) B L).map Prod.snd).flatten =
      List.zipWith (fun v k => φ k v) (B.map Prod.snd).flatten ((List.zipWith (fun (b : Irrep × List α) k => List.replicate b.2.length k) B L).flatten)
  | [], L => by simp
  | b :: B, [] => by simp
  | b :: B, k :: L => by
    simp only [List.zipWith_cons_cons, List.map_cons, List.flatten_cons]
    rw [zip_flatten B L, List.zipWith_append (by simp)]
    congr 1
    generalize b.2 = l
    induction l with
    | nil => rfl
    | cons a l ih => simp [List.replicate_succ, ih]

theorem block_dim {x : IArr (ε → ℝ)} (hx : Inv x) : ∀ b ∈ x.blocks, b.2.length = 2 * b.1.l + 1 := by
  intro b hb
  have := blocksOf_row_length _ _ hx.coherent.array_length b hb
  simpa [Irrep.dim] using this

theorem columnHeads_eq {x : IArr (ε → ℝ)} (hx : Inv x) (H : ℕ) :
    (List.zipWith (fun (b : Irrep × List (ε → ℝ)) k => List.replicate b.2.length k) x.blocks (headsOf H x.irreps)).flatten = columnHeads H x.irreps := by
  have h1 : List.zipWith (fun (b : Irrep × List (ε → ℝ)) k => List.replicate b.2.length k) x.blocks (headsOf H x.irreps) =
      List.zipWith (fun (ir : Irrep) k => List.replicate (2 * ir.l + 1) k) (expand x.irreps) (headsOf H x.irreps) := by
    rw [← blocks_irs, List.zipWith_map_left]
    have hb := block_dim hx
    generalize x.blocks = B at hb
    generalize headsOf H x.irreps = L
    induction B generalizing L with
    | nil => rfl
    | cons b B ih =>
      cases L with
      | nil => rfl
      | cons k L => simp only [List.zipWith_cons_cons]; rw [ih (fun c hc => hb c (by simp [hc])) L, hb b (by simp)]
  rw [h1]
  generalize x.irreps = ms
  unfold headsOf columnHeads expand
  induction ms with
  | nil => rfl
  | cons m ms ih =>
    simp only [List.flatMap_cons]
    rw [List.zipWith_append (by simp), List.flatten_append, ih]
    congr 1
    rw [show List.replicate m.mul m.ir = (List.range m.mul).map fun _ => m.ir by simp [List.map_const'], List.zipWith_map, List.zipWith_self, List.flatMap_def]

/-- Column by column: every column is multiplied by the weight of its head. -/
theorem weightHeads_array {n : IrNorm} (hn : n ≠ .other) {H : ℕ} (w : Fin H → ε → ℝ) {x : IArr (ε → ℝ)} (hx : Inv x) (hs : Splits H x.irreps) :
    ∃ y, weightHeads n H w x = .ok y ∧ Inv y ∧ y.irreps = x.irreps ∧
      ∀ k e, y.array.getD k 0 e = headFactor n H x.irreps * (x.array.getD k 0 e * headAt w ((columnHeads H x.irreps).getD k 0) e) := by
  obtain ⟨y, y1, y2, y3, y4⟩ := weightHeads_spec hn w hx hs
  refine ⟨y, y1, y2, y3, fun k e => ?_⟩
  have ha : y.array = List.zipWith (fun v k => mulBy (headFactor n H x.irreps) (headAt w k) v) x.array (columnHeads H x.irreps) := by
    rw [← y2.array_eq_blocks, y4, zip_flatten (φ := fun k => mulBy (headFactor n H x.irreps) (headAt w k)), hx.array_eq_blocks, columnHeads_eq hx]
  have hl : (columnHeads H x.irreps).length = x.array.length := by
    have := congrArg List.length ha
    rw [y2.length_array, y3, List.length_zipWith, hx.length_array] at this
    rw [hx.length_array]
    have h2 : (columnHeads H x.irreps).length = x.irreps.dim := by
      unfold columnHeads Irreps.dim
      generalize x.irreps = ms
      induction ms with
      | nil => rfl
      | cons m ms ih => simp [List.length_flatMap, Irrep.dim, ih]
    exact h2
  rw [ha]
  by_cases hk : k < x.array.length
  · rw [List.getD_eq_getElem _ _ (by simpa [hl] using hk), List.getD_eq_getElem _ _ hk, List.getD_eq_getElem _ _ (by rw [hl]; exact hk), List.getElem_zipWith]
    rfl
  · rw [List.getD_eq_default _ _ (by simp [hl]; omega), List.getD_eq_default x.array _ (by omega)]
    simp

/-! ### the last layer, node by node -/

theorem callAxis_at (c : LinM.Cfg) (hi : c.instructions = none) (P : LinM.Params) {u : IArr (ν → ℝ)} {u' : IArr (ν' → ℝ)} {y : IArr (ν → ℝ)} (hu : Inv u) (hu' : Inv u')
    (hui : u'.irreps = u.irreps) (huf : u'.zeroFlags = u.zeroFlags) (hy : LinM.callAxis (ν → ℝ) c P u = .ok y) :
    ∃ y', LinM.callAxis (ν' → ℝ) c P u' = .ok y' ∧ Inv y ∧ Inv y' ∧ y'.irreps = y.irreps ∧ y'.zeroFlags = y.zeroFlags ∧
      ∀ n n', (∀ k, u'.array.getD k 0 n' = u.array.getD k 0 n) → ∀ k, y'.array.getD k 0 n' = y.array.getD k 0 n := by
  obtain ⟨y', hy'⟩ := LinM.callAxis_returns c hi P hu hu' hui huf hy
  have cmp : ∀ {L : Type} [CommRing L] [Algebra ℝ L] (φ : (ν → ℝ) →ₐ[ℝ] L) (φ' : (ν' → ℝ) →ₐ[ℝ] L),
      (∀ k, φ' (u'.array.getD k 0) = φ (u.array.getD k 0)) → Inv y ∧ Inv y' ∧ y'.irreps = y.irreps ∧ y'.zeroFlags = y.zeroFlags ∧ y'.array.map φ' = y.array.map φ := by
    intro L _ _ φ φ' h
    obtain ⟨b, b1, b2⟩ := mp_mapCols (φ := φ) (map_zero φ) hu
    obtain ⟨b', b1', b2'⟩ := mp_mapCols (φ := φ') (map_zero φ') hu'
    have hb : Mp (AlgHom.id ℝ L) b b' := by
      refine ⟨b2.inv', b2'.inv', by rw [b2.irreps, b2'.irreps, hui], by rw [b2.flags, b2'.flags, huf], ?_⟩
      rw [b2.array, b2'.array, List.map_map]
      have hl : u'.array.length = u.array.length := by rw [hu'.length_array, hu.length_array, hui]
      apply List.ext_getElem
      · simp [hl]
      · intro n n1 n2
        have := h n
        rw [List.getD_eq_getElem _ _ (by simpa using n1), List.getD_eq_getElem _ _ (by simpa using n2)] at this
        simpa using this
    obtain ⟨o, o1, o2⟩ := LinM.mp_callAxis φ c hi P b2 hy
    obtain ⟨o', o1', o2'⟩ := LinM.mp_callAxis φ' c hi P b2' hy'
    obtain ⟨o'', o3, o4⟩ := LinM.mp_callAxis (AlgHom.id ℝ L) c hi P hb o1
    rw [o1'] at o3
    cases o3
    refine ⟨o2.inv, o2'.inv, by rw [← o2'.irreps, o4.irreps, o2.irreps], by rw [← o2'.flags, o4.flags, o2.flags], ?_⟩
    rw [← o2'.array, o4.array, o2.array]
    simp
  obtain ⟨c1, c2, c3, c4, -⟩ := cmp (pull (fun e : Empty => e.elim)) (pull fun e : Empty => e.elim) fun k => Subsingleton.elim _ _
  refine ⟨y', hy', c1, c2, c3, c4, fun n n' h k => ?_⟩
  obtain ⟨-, -, -, -, hm⟩ := cmp (at' n) (at' n') h
  have := congrArg (fun l : List ℝ => l.getD k 0) hm
  simp only [List.getD_eq_getElem?_getD, List.getElem?_map] at this ⊢
  have hl : y'.array.length = y.array.length := by rw [c2.length_array, c1.length_array, c3]
  by_cases hk : k < y.array.length
  · rw [List.getElem?_eq_getElem hk, List.getElem?_eq_getElem (by rw [hl]; exact hk)] at this ⊢
    exact this
  · rw [List.getElem?_eq_none (by omega), List.getElem?_eq_none (by omega)]
    rfl

/-! ### the steps of the call -/

/-- The weight of head `k` on the edges. -/
noncomputable def headWeight [Fintype ε] (dst : ε → ν) (cutoff : ε → ℝ) (L : List (ε → ℝ)) (k : ℕ) (e : ε) : ℝ := Real.sqrt (max 0 (alpha dst cutoff (L.getD k 0) e))

theorem call_steps [Fintype ε] {c : Cfg} {P : Params} {src dst : ε → ν} {cutoff : ε → ℝ} {attr : IArr (ε → ℝ)} {feats y : IArr (ν → ℝ)} (hy : call c P src dst cutoff attr feats = .ok y) :
    ∃ xs xd L v w u, gather src feats = .ok xs ∧ gather dst feats = .ok xd ∧ logits c P feats.irreps xs xd attr = .ok L ∧ L.length = c.heads ∧ branch c c.out P.val xs attr = .ok v ∧
      weightHeads c.n c.heads (fun k : Fin c.heads => headWeight dst cutoff L k) v = .ok w ∧ scatterSum dst w = .ok u ∧ LinM.callAxis (ν → ℝ) (linear c c.out) P.last u = .ok y := by
  unfold call at hy
  obtain ⟨xs, h1, hy⟩ := bind_ok hy
  obtain ⟨xd, h2, hy⟩ := bind_ok hy
  obtain ⟨L, h3, hy⟩ := bind_ok hy
  split_ifs at hy with h4
  obtain ⟨v, h5, hy⟩ := bind_ok hy
  obtain ⟨w, h6, hy⟩ := bind_ok hy
  obtain ⟨u, h7, hy⟩ := bind_ok hy
  exact ⟨xs, xd, L, v, w, u, h1, h2, h3, not_not.mp h4, h5, h6, h7, hy⟩

theorem call_of_steps [Fintype ε] {c : Cfg} {P : Params} {src dst : ε → ν} {cutoff : ε → ℝ} {attr : IArr (ε → ℝ)} {feats y : IArr (ν → ℝ)} {xs xd v w : IArr (ε → ℝ)} {L : List (ε → ℝ)}
    {u : IArr (ν → ℝ)} (h1 : gather src feats = .ok xs) (h2 : gather dst feats = .ok xd) (h3 : logits c P feats.irreps xs xd attr = .ok L) (h4 : L.length = c.heads)
    (h5 : branch c c.out P.val xs attr = .ok v) (h6 : weightHeads c.n c.heads (fun k : Fin c.heads => headWeight dst cutoff L k) v = .ok w) (h7 : scatterSum dst w = .ok u)
    (h8 : LinM.callAxis (ν → ℝ) (linear c c.out) P.last u = .ok y) : call c P src dst cutoff attr feats = .ok y := by
  unfold call
  simp only [h1, h2, h3, bind, Except.bind]
  rw [if_neg (by simp [h4])]
  unfold headWeight at h6
  simp only [h5, h6, h7, h8]

theorem headAt_weight [Fintype ε] {H : ℕ} (dst : ε → ν) (cutoff : ε → ℝ) (L : List (ε → ℝ)) (hL : L.length = H) (k : ℕ) (e : ε) :
    headAt (fun k : Fin H => headWeight dst cutoff L k) k e = headWeight dst cutoff L k e ∨ (H ≤ k ∧ headAt (fun k : Fin H => headWeight dst cutoff L k) k e = 0) := by
  unfold headAt
  split_ifs with h
  · exact .inl rfl
  · exact .inr ⟨by omega, rfl⟩

end E3nn.Transf

import Verif.Lemmas.Einsum

/-!
# C120: `einsum` with its custom derivative
-/

namespace E3nn.Ein

/-- `einsum` succeeds exactly when the equation fits the operands. -/
theorem C120_defined (e : Eqn) (xs : List Tensor) : (∃ y, einsum e xs = .ok y) ↔ Fits e xs := by
  rw [← check_iff]
  unfold einsum
  rcases check e xs with err | ⟨⟩ <;> simp

theorem zip_self (l : List Char) : l.zip l = l.map fun c => (c, c) := by
  induction l with
  | nil => rfl
  | cons c l ih => simp [ih]

theorem outEnv_get (out : List Char) (o : List ℕ) (hn : out.Nodup) (hl : out.length = o.length) : out.map (outEnv out o) = o := by
  induction out generalizing o with
  | nil => symm; simpa using List.eq_nil_of_length_eq_zero (by simpa using hl.symm)
  | cons c out ih =>
    cases o with
    | nil => simp at hl
    | cons k o =>
      rw [List.nodup_cons] at hn
      rw [List.map_cons]
      congr 1
      · simp [outEnv]
      · conv_rhs => rw [← ih o hn.2 (by simpa using hl)]
        apply List.map_congr_left
        intro d hd
        have : (d == c) = false := by
          simp only [beq_eq_false_iff_ne]
          rintro rfl
          exact hn.1 hd
        simp [outEnv, List.lookup_cons, this]

theorem outEnv_outside (out : List Char) (o : List ℕ) {c : Char} (hc : c ∉ out) : outEnv out o c = 0 := by
  unfold outEnv
  rcases h : (out.zip o).lookup c with _ | n
  · rfl
  · exact absurd (List.of_mem_zip (lookup_mem h)).1 hc

theorem summed_nodup (e : Eqn) : (summed e).Nodup := (List.nodup_dedup _).filter _

theorem mem_summed {e : Eqn} {c : Char} : c ∈ summed e ↔ (∃ ls ∈ e.ins, c ∈ ls) ∧ c ∉ e.out := by
  simp [summed]

theorem inShape_map_iff {s : Char → ℕ} : ∀ {ls : List Char} {sh : List ℕ}, ls.length = sh.length →
    (InShape (ls.map s) sh ↔ ∀ c n, (c, n) ∈ ls.zip sh → s c < n)
  | [], [], _ => by simp [InShape]
  | c :: ls, n :: sh, h => by
    have := inShape_map_iff (s := s) (ls := ls) (sh := sh) (by simpa using h)
    unfold InShape at this ⊢
    rw [List.map_cons, List.forall₂_cons, this, List.zip_cons_cons]
    constructor
    · rintro ⟨h1, h2⟩ d m hm
      rcases List.mem_cons.mp hm with hm | hm
      · obtain ⟨rfl, rfl⟩ := Prod.mk.injEq _ _ _ _ ▸ hm; exact h1
      · exact h2 d m hm
    · intro h
      exact ⟨h c n (by simp), fun d m hm => h d m (List.mem_cons_of_mem _ hm)⟩
  | [], _ :: _, h => by simp at h
  | _ :: _, [], h => by simp at h

theorem zip_of_mem {ls : List Char} {sh : List ℕ} (hl : ls.length = sh.length) {c : Char} (hc : c ∈ ls) : ∃ n, (c, n) ∈ ls.zip sh := by
  obtain ⟨i, hi, rfl⟩ := List.getElem_of_mem hc
  refine ⟨sh[i]'(hl ▸ hi), ?_⟩
  have := List.getElem_mem (l := ls.zip sh) (n := i) (by simp; omega)
  rwa [List.getElem_zip] at this

theorem inShape_length {o sh : List ℕ} (h : InShape o sh) : o.length = sh.length := List.Forall₂.length_eq h

/-- The assignments reached by the nested sums are the ones of the specification. -/
theorem reach_eq_assign {e : Eqn} {xs : List Tensor} (h : Fits e xs) {o : List ℕ} (ho : InShape o (e.out.map (size e xs))) :
    Reach (size e xs) (summed e) (outEnv e.out o) = Assign e xs o := by
  have hlen : e.out.length = o.length := by rw [inShape_length ho]; simp
  have hget := outEnv_get e.out o h.out_nodup hlen
  have hlt : ∀ c ∈ e.out, outEnv e.out o c < size e xs c := by
    have : InShape (e.out.map (outEnv e.out o)) (e.out.map (size e xs)) := by rw [hget]; exact ho
    rw [inShape_map_iff (by simp)] at this
    intro c hc
    refine this c _ ?_
    rw [List.zip_map_right]
    rw [List.mem_map]
    refine ⟨(c, c), ?_, rfl⟩
    rw [zip_self]; simpa using hc
  have hletter : ∀ ls ∈ e.ins, ∀ c ∈ ls, ∃ p ∈ e.ins.zip xs, ∃ n, (c, n) ∈ p.1.zip p.2.shape := by
    intro ls hls c hc
    obtain ⟨i, hi, rfl⟩ := List.getElem_of_mem hls
    have hi' : i < (e.ins.zip xs).length := by have := h.number; simp; omega
    have hp := List.getElem_mem hi'
    rw [List.getElem_zip] at hp
    exact ⟨_, hp, zip_of_mem (h.rank _ hp) hc⟩
  ext r
  simp only [Reach, Assign, Set.mem_setOf_eq]
  constructor
  · rintro ⟨h1, h2⟩
    refine ⟨fun p hp => ?_, fun c hc => ?_, ?_⟩
    · rw [inShape_map_iff (h.rank p hp)]
      intro c n hcn
      have hs := size_of_fits h hp hcn
      rw [← hs]
      have hci : ∃ ls ∈ e.ins, c ∈ ls := ⟨p.1, (List.of_mem_zip hp).1, (List.of_mem_zip hcn).1⟩
      by_cases hco : c ∈ e.out
      · rw [h2 c (by rw [mem_summed]; tauto)]; exact hlt c hco
      · exact h1 c (mem_summed.mpr ⟨hci, hco⟩)
    · have hco : c ∉ e.out := fun hco => by
        obtain ⟨ls, hls, hcl⟩ := h.out_mem c hco
        exact hc ls hls hcl
      rw [h2 c ?_, outEnv_outside _ _ hco]
      rw [mem_summed]
      rintro ⟨⟨ls, hls, hcl⟩, _⟩
      exact hc ls hls hcl
    · conv_rhs => rw [← hget]
      apply List.map_congr_left
      intro c hc
      exact h2 c (by rw [mem_summed]; tauto)
  · rintro ⟨h1, h2, h3⟩
    refine ⟨fun c hc => ?_, fun c hc => ?_⟩
    · obtain ⟨⟨ls, hls, hcl⟩, _⟩ := mem_summed.mp hc
      obtain ⟨p, hp, n, hcn⟩ := hletter ls hls c hcl
      rw [size_of_fits h hp hcn]
      exact (inShape_map_iff (h.rank p hp)).mp (h1 p hp) c n hcn
    · by_cases hco : c ∈ e.out
      · have h4 := h3.trans hget.symm
        exact (List.map_inj_left.mp h4) c hco
      · rw [outEnv_outside _ _ hco]
        apply h2
        intro ls hls hcl
        exact hc (mem_summed.mpr ⟨⟨ls, hls, hcl⟩, hco⟩)

theorem prodAt_eq (ins : List (List Char)) (xs : List Tensor) (s : Char → ℕ) :
    prodAt ins xs s = ((ins.zip xs).map fun p => p.2.val (p.1.map s)).prod := by
  unfold prodAt
  rw [← List.map_uncurry_zip_eq_zipWith]
  rfl

/-- `einsum` returns the sum over all assignments of the products of the entries; the axes of the result have the lengths of their letters. -/
theorem C120_value (e : Eqn) (xs : List Tensor) (y : Tensor) (hy : einsum e xs = .ok y) :
    (y.shape.length = e.out.length ∧
      ∀ c n, (c, n) ∈ e.out.zip y.shape → ∀ p ∈ e.ins.zip xs, ∀ m, (c, m) ∈ p.1.zip p.2.shape → n = m) ∧
    ∀ o, InShape o y.shape → y.val o = value e xs o := by
  have h : Fits e xs := (C120_defined e xs).mp ⟨y, hy⟩
  rw [einsum_of_fits h, Except.ok.injEq] at hy
  subst hy
  refine ⟨⟨by simp, ?_⟩, fun o ho => ?_⟩
  · intro c n hcn p hp m hm
    rw [List.zip_map_right, List.mem_map] at hcn
    obtain ⟨⟨a, b⟩, hab, hc⟩ := hcn
    rw [zip_self, List.mem_map] at hab
    obtain ⟨a', _, ha⟩ := hab
    simp only [Prod.mk.injEq] at ha
    obtain ⟨rfl, rfl⟩ := ha
    simp only [Prod.map, id, Prod.mk.injEq] at hc
    obtain ⟨rfl, rfl⟩ := hc
    exact size_of_fits h hp hm
  · simp only
    rw [sumOver_eq _ _ _ (summed_nodup e), reach_eq_assign h ho, value]
    exact finsum_mem_congr rfl fun s _ => prodAt_eq _ _ _

theorem fits_congr {e : Eqn} {xs xs' : List Tensor} (hs : xs'.map Tensor.shape = xs.map Tensor.shape) (h : Fits e xs) :
    Fits e xs' ∧ size e xs' = size e xs := by
  have hz : (e.ins.zip xs').map (fun p => (p.1, p.2.shape)) = (e.ins.zip xs).map (fun p => (p.1, p.2.shape)) := by
    have : ∀ ys : List Tensor, (e.ins.zip ys).map (fun p => (p.1, p.2.shape)) = e.ins.zip (ys.map Tensor.shape) := fun ys => by
      rw [List.zip_map_right]; rfl
    rw [this, this, hs]
  have hm : ∀ p ∈ e.ins.zip xs', ∃ q ∈ e.ins.zip xs, q.1 = p.1 ∧ q.2.shape = p.2.shape := by
    intro p hp
    have : (p.1, p.2.shape) ∈ (e.ins.zip xs).map (fun p => (p.1, p.2.shape)) := by
      rw [← hz]; exact List.mem_map.mpr ⟨p, hp, rfl⟩
    obtain ⟨q, hq, he⟩ := List.mem_map.mp this
    exact ⟨q, hq, by simpa using congrArg Prod.fst he, by simpa using congrArg Prod.snd he⟩
  refine ⟨⟨h.nonempty, ?_, ?_, ?_, h.out_nodup, h.out_mem⟩, ?_⟩
  · rw [h.number]; simpa using (congrArg List.length hs).symm
  · intro p hp
    obtain ⟨q, hq, h1, h2⟩ := hm p hp
    rw [← h1, ← h2]; exact h.rank q hq
  · intro p hp q hq c m n hcm hcn
    obtain ⟨p', hp', h1, h2⟩ := hm p hp
    obtain ⟨q', hq', h3, h4⟩ := hm q hq
    rw [← h1, ← h2] at hcm
    rw [← h3, ← h4] at hcn
    exact h.lengths p' hp' q' hq' c m n hcm hcn
  · have : pairs e xs' = pairs e xs := by
      have hh : ∀ ys : List Tensor, pairs e ys = (((e.ins.zip ys).map (fun p => (p.1, p.2.shape))).map fun q => q.1.zip q.2).flatten := fun ys => by
        unfold pairs
        rw [← List.map_uncurry_zip_eq_zipWith, List.map_map]; rfl
      rw [hh, hh, hz]
    unfold size
    rw [this]

theorem shapes_replace {xs xds : List Tensor} (hs : xds.map Tensor.shape = xs.map Tensor.shape) {d : Tensor} {i : ℕ}
    (hi : (d, i) ∈ xds.zipIdx) : (xs.take i ++ [d] ++ xs.drop (i + 1)).map Tensor.shape = xs.map Tensor.shape := by
  obtain ⟨h1, h2⟩ := List.mem_zipIdx' hi
  have hl : xds.length = xs.length := by simpa using congrArg List.length hs
  have hd : d.shape = (xs[i]'(hl ▸ h1)).shape := by
    rw [h2]
    have := congrArg (fun l => l[i]?) hs
    simp only [List.getElem?_map, List.getElem?_eq_getElem h1, List.getElem?_eq_getElem (hl ▸ h1), Option.map_some, Option.some.injEq] at this
    exact this
  simp only [List.map_append, List.map_cons, List.map_nil, hd, List.map_take, List.map_drop]
  rw [show (xs[i]'(hl ▸ h1)).shape = (xs.map Tensor.shape)[i]'(by simp; omega) by simp]
  rw [List.take_append_getElem, List.take_append_drop]

theorem mapM_ok {α β : Type} (f : α → Except PyErr β) (g : α → β) (l : List α) (h : ∀ a ∈ l, f a = .ok (g a)) :
    l.mapM f = .ok (l.map g) := by
  induction l with
  | nil => rfl
  | cons a l ih =>
    rw [List.mapM_cons, h a (by simp), ih fun b hb => h b (List.mem_cons_of_mem _ hb)]
    rfl

theorem foldl_add (l : List Tensor) (a : Tensor) : (l.foldl add a).shape = a.shape ∧
    ∀ i, (l.foldl add a).val i = a.val i + (l.map fun b => b.val i).sum := by
  induction l generalizing a with
  | nil => simp
  | cons b l ih =>
    obtain ⟨h1, h2⟩ := ih (add a b)
    rw [List.foldl_cons]
    refine ⟨h1.trans rfl, fun i => ?_⟩
    rw [h2 i, List.map_cons, List.sum_cons, add, add_assoc]

theorem einsumJvp_eq {e : Eqn} {xs xds : List Tensor} (h : Fits e xs) (hs : xds.map Tensor.shape = xs.map Tensor.shape) :
    ∃ y yd, einsum e xs = .ok y ∧ einsumJvp e xs xds = .ok (y, yd) ∧ y.shape = e.out.map (size e xs) ∧ yd.shape = y.shape ∧
      ∀ o, yd.val o = sumOver (size e xs)
        (fun r => (xds.zipIdx.map fun p => prodAt e.ins (xs.take p.2 ++ [p.1] ++ xs.drop (p.2 + 1)) r).sum) (summed e) (outEnv e.out o) := by
  have key : einsumJvp e xs xds = .ok (⟨e.out.map (size e xs), fun o => sumOver (size e xs) (prodAt e.ins xs) (summed e) (outEnv e.out o)⟩,
      (xds.zipIdx.map fun p => (⟨e.out.map (size e xs), fun o => sumOver (size e xs)
        (prodAt e.ins (xs.take p.2 ++ [p.1] ++ xs.drop (p.2 + 1))) (summed e) (outEnv e.out o)⟩ : Tensor)).foldl add
        ⟨e.out.map (size e xs), fun _ => 0⟩) := by
    rw [einsumJvp, einsum_of_fits h]
    rw [mapM_ok _ (fun p => ⟨e.out.map (size e xs), fun o => sumOver (size e xs)
      (prodAt e.ins (xs.take p.2 ++ [p.1] ++ xs.drop (p.2 + 1))) (summed e) (outEnv e.out o)⟩)]
    · rfl
    · rintro ⟨d, i⟩ hp
      obtain ⟨h1, h2⟩ := fits_congr (shapes_replace hs hp) h
      rw [einsum_of_fits h1, h2]
  refine ⟨_, _, einsum_of_fits h, key, rfl, (foldl_add _ _).1, ?_⟩
  · intro o
    rw [(foldl_add _ _).2 o, List.map_map, zero_add]
    exact sumOver_sum _ _ _ _ _

/-- The rule `einsum_jvp` returns the value and the derivative: along every differentiable family of operands that has the velocity
`x_dots`, the tangent is the derivative of the sum that `einsum` computes. -/
theorem C120_jvp (e : Eqn) (xs xds : List Tensor) (h : Fits e xs) (hs : xds.map Tensor.shape = xs.map Tensor.shape) :
    ∃ y yd, einsum e xs = .ok y ∧ einsumJvp e xs xds = .ok (y, yd) ∧ yd.shape = y.shape ∧
      ∀ (X : List (ℝ → Tensor)) (t : ℝ), X.length = xs.length → (∀ p ∈ X.zip (xs.zip xds), Velocity p.1 t p.2.1 p.2.2) →
        ∀ o, InShape o y.shape → HasDerivAt (fun u => value e (X.map (· u)) o) (yd.val o) t := by
  obtain ⟨y, yd, h1, h2, h3, h4, h5⟩ := einsumJvp_eq h hs
  refine ⟨y, yd, h1, h2, h4, ?_⟩
  intro X t hX hv o ho
  have hl : xds.length = xs.length := by simpa using congrArg List.length hs
  have hshape : ∀ u, (X.map (· u)).map Tensor.shape = xs.map Tensor.shape := by
    intro u
    apply List.ext_getElem (by simpa using hX)
    intro i hi hi'
    simp only [List.length_map] at hi hi'
    have hm : (X[i], xs[i], xds[i]'(hl ▸ hi')) ∈ X.zip (xs.zip xds) := by
      have := List.getElem_mem (l := X.zip (xs.zip xds)) (n := i) (by simp; omega)
      simpa using this
    simpa using (hv _ hm).1 u
  have hval : ∀ u, value e (X.map (· u)) o =
      sumOver (size e xs) (prodAt e.ins (X.map (· u))) (summed e) (outEnv e.out o) := by
    intro u
    obtain ⟨g1, g2⟩ := fits_congr (hshape u) h
    have := (C120_value e _ _ (einsum_of_fits g1)).2 o (by rw [g2, ← h3]; exact ho)
    rw [← this, g2]
  simp only [hval]
  rw [h5 o]
  apply deriv_sumOver _ _ _ _ _ (summed_nodup e)
  intro r hr
  rw [reach_eq_assign h (h3 ▸ ho)] at hr
  refine (deriv_prodAt e.ins X xs xds t r h.number hX hl ?_).2
  rintro ⟨ls, f, x, d⟩ hp
  obtain ⟨i, hi, hg⟩ := List.getElem_of_mem hp
  simp only [List.getElem_zip, Prod.mk.injEq] at hg
  obtain ⟨rfl, rfl, rfl, rfl⟩ := hg
  simp only [List.length_zip] at hi
  have hm : (X[i]'(by omega), xs[i]'(by omega), xds[i]'(by omega)) ∈ X.zip (xs.zip xds) := by
    have := List.getElem_mem (l := X.zip (xs.zip xds)) (n := i) (by simp; omega)
    simpa using this
  have hm2 : (e.ins[i]'(by omega), xs[i]'(by omega)) ∈ e.ins.zip xs := by
    have := List.getElem_mem (l := e.ins.zip xs) (n := i) (by simp; omega)
    simpa using this
  exact (hv _ hm).2.2 _ (hr.1 _ hm2)

/-- The tangent depends linearly on `x_dots`, so that it can be transposed for reverse mode. -/
theorem C120_linear (e : Eqn) (xs ds ds' : List Tensor) (a b : ℝ) (h : Fits e xs) (hd : ds.map Tensor.shape = xs.map Tensor.shape)
    (hd' : ds'.map Tensor.shape = xs.map Tensor.shape) (y yd yd' : Tensor) (h1 : einsumJvp e xs ds = .ok (y, yd))
    (h2 : einsumJvp e xs ds' = .ok (y, yd')) :
    ∃ z, einsumJvp e xs (List.zipWith (fun d d' => ⟨d.shape, fun i => a * d.val i + b * d'.val i⟩) ds ds') = .ok (y, z) ∧
      z.shape = y.shape ∧ ∀ o, z.val o = a * yd.val o + b * yd'.val o := by
  set cs : List Tensor := List.zipWith (fun d d' => ⟨d.shape, fun i => a * d.val i + b * d'.val i⟩) ds ds' with hcs
  have hl : ds.length = xs.length := by simpa using congrArg List.length hd
  have hl' : ds'.length = xs.length := by simpa using congrArg List.length hd'
  have hlc : cs.length = xs.length := by simp [hcs, hl, hl']
  have hc : cs.map Tensor.shape = xs.map Tensor.shape := by
    rw [← hd]
    apply List.ext_getElem (by simp [hlc, hl])
    intro i hi hi'
    simp [hcs]
  obtain ⟨y0, z, k1, k2, -, k4, k5⟩ := einsumJvp_eq h hc
  obtain ⟨y1, z1, m1, m2, -, m4, m5⟩ := einsumJvp_eq h hd
  obtain ⟨y2, z2, n1, n2, -, n4, n5⟩ := einsumJvp_eq h hd'
  rw [h1, Except.ok.injEq, Prod.mk.injEq] at m2
  rw [h2, Except.ok.injEq, Prod.mk.injEq] at n2
  obtain ⟨rfl, rfl⟩ := m2
  obtain ⟨-, rfl⟩ := n2
  rw [m1, Except.ok.injEq] at k1
  subst k1
  refine ⟨z, k2, k4, fun o => ?_⟩
  rw [k5, m5, n5, ← sumOver_lin]
  apply sumOver_congr _ _ _ _ (summed_nodup e)
  intro r _
  exact lin_prodAt a b e.ins xs ds ds' r h.number hl hl'

/-- Operands that do not fit the equation are refused by the rule as by `einsum` itself. -/
theorem C120_refuse (e : Eqn) (xs xds : List Tensor) (err : PyErr) (h : einsum e xs = .error err) : einsumJvp e xs xds = .error err := by
  rw [einsumJvp, h]
  rfl

/-- The hypotheses are met, and the rule is the product rule: the matrix product `"ij,jk->ik"`. -/
theorem C120_matmul (A B dA dB : List ℕ → ℝ) (m n p : ℕ) :
    ∃ y yd, einsumJvp ⟨[['i', 'j'], ['j', 'k']], ['i', 'k']⟩ [⟨[m, n], A⟩, ⟨[n, p], B⟩] [⟨[m, n], dA⟩, ⟨[n, p], dB⟩] = .ok (y, yd) ∧
      y.shape = [m, p] ∧ (∀ i k, y.val [i, k] = ∑ j ∈ Finset.range n, A [i, j] * B [j, k]) ∧
      ∀ i k, yd.val [i, k] = ∑ j ∈ Finset.range n, (dA [i, j] * B [j, k] + A [i, j] * dB [j, k]) := by
  have hf : Fits ⟨[['i', 'j'], ['j', 'k']], ['i', 'k']⟩ [⟨[m, n], A⟩, ⟨[n, p], B⟩] := by
    refine ⟨by simp, by simp, by simp, ?_, by simp, by simp⟩
    intro q hq r hr c a b ha hb
    simp only [List.zip_cons_cons, List.zip_nil_right, List.mem_cons, List.not_mem_nil, or_false] at hq hr
    rcases hq with rfl | rfl <;> rcases hr with rfl | rfl <;>
      simp only [List.zip_cons_cons, List.zip_nil_right, List.mem_cons, List.not_mem_nil, or_false, Prod.mk.injEq] at ha hb <;>
      rcases ha with ⟨rfl, rfl⟩ | ⟨rfl, rfl⟩ <;> simp at hb <;> exact hb.symm
  have hsz : ∀ A B, size ⟨[['i', 'j'], ['j', 'k']], ['i', 'k']⟩ [⟨[m, n], A⟩, ⟨[n, p], B⟩] = fun c =>
      if c = 'i' then m else if c = 'j' then n else if c = 'k' then p else 0 := by
    intro A B
    funext c
    simp only [size, pairs, List.zipWith_cons_cons, List.zip_cons_cons, List.zip_nil_right, List.zipWith_nil_right, List.flatten_cons,
      List.flatten_nil, List.append_nil, List.cons_append, List.nil_append, List.lookup_cons, List.lookup_nil]
    by_cases h1 : c = 'i'
    · simp [h1]
    by_cases h2 : c = 'j'
    · simp [h2]
    by_cases h3 : c = 'k'
    · simp [h3]
    simp [h1, h2, h3, beq_eq_false_iff_ne.mpr h1, beq_eq_false_iff_ne.mpr h2, beq_eq_false_iff_ne.mpr h3]
  have hsum : summed ⟨[['i', 'j'], ['j', 'k']], ['i', 'k']⟩ = ['j'] := by decide
  obtain ⟨y, yd, h1, h2, h3, h4, h5⟩ := einsumJvp_eq (xds := [⟨[m, n], dA⟩, ⟨[n, p], dB⟩]) hf rfl
  refine ⟨y, yd, h2, ?_, fun i k => ?_, fun i k => ?_⟩
  · rw [h3, hsz]; simp
  · rw [einsum_of_fits hf, Except.ok.injEq] at h1
    rw [← h1]
    simp only [hsum, sumOver, hsz]
    apply Finset.sum_congr (by simp)
    intro j _
    simp [prodAt, outEnv, Function.update, List.lookup_cons]
  · rw [h5, hsum]
    simp only [sumOver, hsz]
    apply Finset.sum_congr (by simp)
    intro j _
    simp [prodAt, outEnv, Function.update, List.lookup_cons, List.zipIdx_cons]

end E3nn.Ein

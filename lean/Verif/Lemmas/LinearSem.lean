import Verif.Lemmas.LinearMatrix

namespace E3nn
open IArr

namespace FLin

/-! ### The constructor -/

theorem mem_zipIdx_pair {γ : Type} {l : List γ} {a : γ} {i : Nat} : (a, i) ∈ l.zipIdx ↔ l[i]? = some a :=
  List.mk_mem_zipIdx_iff_getElem?

theorem mem_defaultPairs (a b : Irreps) (i o : Nat) :
    (i, o) ∈ defaultPairs a b ↔ ∃ mi mo, a[i]? = some mi ∧ b[o]? = some mo ∧ mi.ir = mo.ir := by
  simp only [defaultPairs, List.mem_flatMap, List.mem_filterMap, Prod.exists]
  constructor
  · rintro ⟨mi, i', h1, mo, o', h2, h3⟩
    split at h3
    · rename_i h
      simp only [Option.some.injEq, Prod.mk.injEq] at h3
      obtain ⟨rfl, rfl⟩ := h3
      exact ⟨mi, mo, mem_zipIdx_pair.mp h1, mem_zipIdx_pair.mp h2, h⟩
    · cases h3
  · rintro ⟨mi, mo, h1, h2, h3⟩
    exact ⟨mi, i, mem_zipIdx_pair.mpr h1, mo, o, mem_zipIdx_pair.mpr h2, by simp [h3]⟩

theorem filterMap_if {γ δ : Type} (l : List γ) (c : γ → Prop) [DecidablePred c] (g : γ → δ) :
    (l.filterMap fun a => if c a then some (g a) else none) = (l.filter fun a => decide (c a)).map g := by
  induction l with
  | nil => rfl
  | cons a l ih => by_cases h : c a <;> simp [List.filterMap_cons, List.filter_cons, h, ih]

theorem zipIdx_snd_nodup {γ : Type} (l : List γ) : (l.zipIdx.map Prod.snd).Nodup := by
  rw [List.zipIdx_map_snd]; exact List.nodup_range'

theorem defaultPairs_nodup (a b : Irreps) : (defaultPairs a b).Nodup := by
  unfold defaultPairs
  rw [List.nodup_flatMap]
  constructor
  · rintro ⟨mi, i⟩ _
    rw [filterMap_if b.zipIdx (fun mo => mi.ir = mo.1.ir) (fun mo => (i, mo.2))]
    apply List.Nodup.of_map Prod.snd
    rw [List.map_map]
    exact ((List.filter_sublist (p := fun mo : MulIrrep × Nat => decide (mi.ir = mo.1.ir))).map Prod.snd).nodup
      (zipIdx_snd_nodup b)
  · have h := zipIdx_snd_nodup a
    unfold List.Nodup at h
    rw [List.pairwise_map] at h
    refine h.imp ?_
    rintro ⟨m, i⟩ ⟨m', i'⟩ hne
    rw [Function.onFun, List.disjoint_left]
    rintro ⟨p, q⟩ h1 h2
    obtain ⟨x, -, e1⟩ := List.mem_filterMap.mp h1
    obtain ⟨y, -, e2⟩ := List.mem_filterMap.mp h2
    split at e1 <;> split at e2 <;> simp at e1 e2
    exact hne (by simp [e1.1, e2.1])

theorem shapedPairs_ok {a b : Irreps} {ps : List (Nat × Nat)} {sh : List (Nat × Nat × Nat × Nat)}
    (h : shapedPairs a b ps = .ok sh) :
    sh.map (fun t => (t.1, t.2.1)) = ps ∧
      ∀ t ∈ sh, ∃ mi mo, a[t.1]? = some mi ∧ b[t.2.1]? = some mo ∧ t.2.2 = (mi.mul, mo.mul) := by
  unfold shapedPairs at h
  induction ps generalizing sh with
  | nil => simp [pure, Except.pure] at h; subst h; simp
  | cons p ps ih =>
    rw [List.mapM_cons] at h
    unfold mulAt at h
    cases h1 : a[p.1]? with
    | none => rw [h1] at h; simp [bind, Except.bind] at h
    | some mi =>
      cases h2 : b[p.2]? with
      | none => rw [h1, h2] at h; simp [bind, Except.bind] at h
      | some mo =>
        rw [h1, h2] at h
        cases h3 : ps.mapM (fun p => (do
            let x ← mulAt a p.1
            let y ← mulAt b p.2
            return (p.1, p.2, x, y) : Except PyErr _)) with
        | error e => unfold mulAt at h3; simp only [bind, Except.bind, pure, Except.pure] at h h3; rw [h3] at h; cases h
        | ok r =>
          obtain ⟨i1, i2⟩ := ih h3
          unfold mulAt at h3; simp only [bind, Except.bind, pure, Except.pure] at h h3; rw [h3] at h
          injection h with h; subst h
          refine ⟨by simp [← i1], ?_⟩
          intro t ht
          rcases List.mem_cons.mp ht with rfl | ht
          · exact ⟨mi, mo, h1, h2, rfl⟩
          · exact i2 t ht

theorem shapedPairs_total {a b : Irreps} {ps : List (Nat × Nat)}
    (h : ∀ p ∈ ps, p.1 < a.length ∧ p.2 < b.length) : ∃ sh, shapedPairs a b ps = .ok sh := by
  unfold shapedPairs
  induction ps with
  | nil => exact ⟨[], rfl⟩
  | cons p ps ih =>
    obtain ⟨sh, hs⟩ := ih fun q hq => h q (by simp [hq])
    obtain ⟨h1, h2⟩ := h p (by simp)
    rw [List.mapM_cons, hs]
    refine ⟨(p.1, p.2, a[p.1].mul, b[p.2].mul) :: sh, ?_⟩
    simp [mulAt, List.getElem?_eq_getElem h1, List.getElem?_eq_getElem h2, bind, Except.bind, pure, Except.pure]

/-- What a successful construction gives. -/
theorem init_ok {irrepsIn irrepsOut : Irreps} {ins : Option (List (Nat × Nat))} {b : BiasArg} {a g : ℝ} {f : FLin ℝ}
    (h : init irrepsIn irrepsOut ins b a g = .ok f) :
    ∃ sh, shapedPairs irrepsIn irrepsOut (ins.getD (defaultPairs irrepsIn irrepsOut)) = .ok sh ∧
      (resolveBiases irrepsOut b).length = irrepsOut.length ∧
      (∀ bm ∈ (resolveBiases irrepsOut b).zip irrepsOut, bm.1 = true → bm.2.ir.isScalar = true) ∧
      f = ⟨irrepsIn, irrepsOut, weighted a g sh ++ biasIns irrepsOut (resolveBiases irrepsOut b)⟩ := by
  unfold init at h
  cases h1 : shapedPairs irrepsIn irrepsOut (ins.getD (defaultPairs irrepsIn irrepsOut)) with
  | error e => rw [h1] at h; cases h
  | ok sh =>
    rw [h1] at h
    simp only [bind, Except.bind, pure, Except.pure] at h
    split at h
    · cases h
    · rename_i h2
      split at h
      · cases h
      · rename_i h3
        injection h with h
        refine ⟨sh, rfl, by simpa using h2, ?_, h.symm⟩
        intro bm hbm hb
        simp only [Bool.not_eq_true', Bool.not_eq_false] at h3
        have := List.all_eq_true.mp h3 bm hbm
        simpa [hb] using this

theorem biasIns_mem {irrepsOut : Irreps} {bs : List Bool} {ins : LinIns ℝ} (h : ins ∈ biasIns irrepsOut bs) :
    ins.iIn = none ∧ ∃ mo, irrepsOut[ins.iOut]? = some mo ∧ ins.pathShape = [mo.dim] ∧ (true, mo) ∈ bs.zip irrepsOut ∧
      bs[ins.iOut]? = some true := by
  unfold biasIns at h
  obtain ⟨⟨⟨b, m⟩, o⟩, h1, h2⟩ := List.mem_filterMap.mp h
  have h3 := mem_zipIdx_pair.mp h1
  split at h2
  · rename_i hb
    simp only at hb; subst hb
    injection h2 with h2; subst h2
    obtain ⟨k1, k2⟩ := List.getElem?_zip_eq_some.mp h3
    exact ⟨rfl, m, k2, rfl, List.mem_of_getElem? h3, k1⟩
  · cases h2

theorem init_good {irrepsIn irrepsOut : Irreps} {ins : Option (List (Nat × Nat))} {b : BiasArg} {a g : ℝ} {f : FLin ℝ}
    (h : init irrepsIn irrepsOut ins b a g = .ok f)
    (hins : ∀ ps, ins = some ps → ∀ p ∈ ps, ∀ mi mo, irrepsIn[p.1]? = some mi → irrepsOut[p.2]? = some mo → mi.ir = mo.ir) :
    Good f := by
  obtain ⟨sh, h1, h2, h3, rfl⟩ := init_ok h
  obtain ⟨s1, s2⟩ := shapedPairs_ok h1
  intro i hi
  rcases List.mem_append.mp hi with hi | hi
  · unfold weighted at hi
    obtain ⟨t, ht, rfl⟩ := List.mem_map.mp hi
    obtain ⟨mi, mo, k1, k2, k3⟩ := s2 t ht
    refine ⟨mo, k2, mi, k1, ?_, by simp [k3]⟩
    have hp : (t.1, t.2.1) ∈ ins.getD (defaultPairs irrepsIn irrepsOut) := by
      rw [← s1]; exact List.mem_map_of_mem (f := fun t : Nat × Nat × Nat × Nat => (t.1, t.2.1)) ht
    cases ins with
    | none =>
      obtain ⟨mi', mo', j1, j2, j3⟩ := (mem_defaultPairs _ _ _ _).mp hp
      rw [k1] at j1; rw [k2] at j2; cases j1; cases j2; exact j3
    | some ps => exact hins ps rfl _ hp mi mo k1 k2
  · obtain ⟨j1, mo, j2, j3, j4, -⟩ := biasIns_mem hi
    refine ⟨mo, j2, ?_⟩
    rw [j1]
    have := h3 _ j4 rfl
    simp only [Irrep.isScalar, Bool.and_eq_true, beq_iff_eq] at this
    refine ⟨?_, j3⟩
    obtain ⟨m, ⟨l, p⟩⟩ := mo
    simp only at this
    simp [this.1, this.2]

/-! ### Reading one component of the output -/

variable {K : Type} [CommRing K]

theorem getD_vadd {x y : List K} (h : x.length = y.length) (j : Nat) :
    (vadd x y).getD j 0 = x.getD j 0 + y.getD j 0 := by
  by_cases hj : j < x.length
  · simp [List.getD, vadd, List.getElem?_zipWith, List.getElem?_eq_getElem hj,
      List.getElem?_eq_getElem (show j < y.length by omega)]
  · simp [List.getD, vadd, List.getElem?_zipWith, List.getElem?_eq_none (show x.length ≤ j by omega),
      List.getElem?_eq_none (show y.length ≤ j by omega)]

theorem flat_sumChunks_getD {m : MulIrrep} (cs : List (Chunk K)) (h : ∀ c ∈ cs, shapeOk m c = true) (j : Nat) :
    (flatChunk m (sumChunks cs)).getD j 0 = (cs.map fun c => (flatChunk m c).getD j 0).sum := by
  induction cs using List.reverseRecOn with
  | nil =>
    simp only [sumChunks, List.filterMap_nil, flatChunk, List.map_nil, List.sum_nil, List.getD, List.getElem?_replicate]
    split <;> rfl
  | append_singleton cs c ih =>
    have h1 : ∀ c ∈ cs, shapeOk m c = true := fun c hc => h c (by simp [hc])
    have h2 := h c (by simp)
    rw [flat_sumChunks_append h1 h2, getD_vadd, ih h1]
    · simp
    · rw [flatChunk_length (sumChunks_shape h1), flatChunk_length h2]

theorem flatten_getD (R : List (List K)) (d : Nat) (hR : ∀ r ∈ R, r.length = d) (v k : Nat) (hk : k < d) :
    R.flatten.getD (v * d + k) 0 = (R.getD v []).getD k 0 := by
  induction R generalizing v with
  | nil => simp [List.getD]
  | cons r R ih =>
    have hr := hR r (by simp)
    cases v with
    | zero => simp [List.getD, List.getElem?_append_left (show k < r.length by omega)]
    | succ v =>
      have := ih (fun r hr => hR r (by simp [hr])) v
      have e : (v + 1) * d + k = r.length + (v * d + k) := by rw [hr, Nat.succ_mul]; omega
      rw [e]
      simp only [List.getD, List.flatten_cons, List.getElem?_append_right (Nat.le_add_right _ _), Nat.add_sub_cancel_left,
        List.getElem?_cons_succ] at *
      exact this

theorem rows_getD (m d : Nat) (l : List K) (v : Nat) (hv : v < m) : (rows m d l).getD v [] = (l.drop (v * d)).take d := by
  induction m generalizing l v with
  | zero => omega
  | succ m ih =>
    cases v with
    | zero => simp [rows, List.getD]
    | succ v =>
      have := ih (l.drop d) v (by omega)
      simp only [rows, List.getD, List.getElem?_cons_succ] at *
      rw [this, List.drop_drop, Nat.succ_mul, Nat.add_comm]

theorem getD_take_drop (l : List K) (a d k : Nat) (hk : k < d) : ((l.drop a).take d).getD k 0 = l.getD (a + k) 0 := by
  simp [List.getD, List.getElem?_take, hk, List.getElem?_drop]

theorem zipWith_sum_range (W X : List (List K)) (h : W.length = X.length) (v k : Nat) :
    (List.zipWith (fun a row => a * row.getD k 0) (W.map fun r => r.getD v 0) X).sum =
      ((List.range W.length).map fun u => (W.getD u []).getD v 0 * (X.getD u []).getD k 0).sum := by
  induction W generalizing X with
  | nil => simp
  | cons w W ih =>
    cases X with
    | nil => simp at h
    | cons x X =>
      simp only [List.map_cons, List.zipWith_cons_cons, List.sum_cons, List.length_cons, List.range_succ_eq_map,
        List.map_map]
      rw [ih X (by simpa using h)]
      simp [List.getD, Function.comp_def]

theorem getD_map_mul (c : K) (l : List K) (j : Nat) : (l.map (c * ·)).getD j 0 = c * l.getD j 0 := by
  simp only [List.getD, List.getElem?_map]
  cases l[j]? <;> simp

/-- The value that one path contributes to component `k` of copy `v` of its output. -/
def pathTerm (f : FLin K) (x : List K) (iw : LinIns K × List K) (v k : Nat) : K :=
  match iw.1.iIn with
  | none => iw.1.pathWeight * iw.2.getD v 0
  | some i => iw.1.pathWeight *
    ((List.range (f.irrepsIn.getD i ⟨0, ⟨0, .e⟩⟩).mul).map fun u =>
      iw.2.getD (u * (f.irrepsOut.getD iw.1.iOut ⟨0, ⟨0, .e⟩⟩).mul + v) 0 *
      x.getD (Irreps.dim (f.irrepsIn.take i) + (u * (f.irrepsIn.getD i ⟨0, ⟨0, .e⟩⟩).ir.dim + k)) 0).sum

theorem pathRows_term {f : FLin K} (hf : Good f) {x : IArr K} (hx : Inv x) (hi : x.irreps = f.irrepsIn)
    {ws : List (List K)} (hw : WeightsOk f ws) {iw : LinIns K × List K} (hm : iw ∈ f.instructions.zip ws)
    {mo : MulIrrep} (ho : f.irrepsOut[iw.1.iOut]? = some mo) (v k : Nat) (hv : v < mo.mul) (hk : k < mo.ir.dim) :
    (flatChunk mo (f.pathRows x.chunks iw)).getD (v * mo.ir.dim + k) 0 = f.pathTerm x.array iw v k := by
  obtain ⟨hm1, hm2⟩ := hw.mem hm
  obtain ⟨mo', ho2, hins⟩ := hf _ hm1
  rw [ho] at ho2; cases ho2
  have ho' : f.irrepsOut.getD iw.1.iOut ⟨0, ⟨0, .e⟩⟩ = mo := by simp [List.getD, ho]
  cases hin : iw.1.iIn with
  | none =>
    rw [hin] at hins
    obtain ⟨h1, h2⟩ := hins
    have hwl : iw.2.length = mo.mul := by
      rw [hm2]; simp [size, h2, MulIrrep.dim, h1, Irrep.dim]
    have hd : mo.ir.dim = 1 := by rw [h1]; rfl
    have hk0 : k = 0 := by omega
    subst hk0
    simp only [pathRows, hin, ho', flatChunk, pathTerm]
    rw [rows_flatten _ _ _ (by simp [hwl]), List.take_of_length_le (by simp [hwl]), hd, getD_map_mul]
    simp
  | some i =>
    rw [hin] at hins
    obtain ⟨mi, k1, k2, k3⟩ := hins
    have hio := (List.getElem?_eq_some_iff.mp k1).1
    have hz := zip_get hx (i := i) (by rw [hi]; exact hio)
    have hsl := slice_flat _ hx.pairs.1 i hz
    rw [hx.pairs.2.1, hx.pairs.2.2.2.2.2] at hsl
    have hmi : x.irreps[i]'(by rw [hi]; exact hio) = mi := by
      have e : x.irreps[i]? = some mi := by rw [hi]; exact k1
      exact Option.some.inj ((List.getElem?_eq_getElem (by rw [hi]; exact hio)).symm.trans e)
    have hsh := hx.pairs.1 _ (List.mem_of_getElem? hz)
    rw [hmi] at hsl hsh
    rw [hi] at hsl
    have hcd : x.chunks.getD i none = chunkAt x i := by
      simp [List.getD, (List.getElem?_zip_eq_some.mp hz).2]
    have hi' : f.irrepsIn.getD i ⟨0, ⟨0, .e⟩⟩ = mi := by simp [List.getD, k1]
    have hent : ∀ u, u < mi.mul → x.array.getD (Irreps.dim (f.irrepsIn.take i) + (u * mi.ir.dim + k)) 0 =
        (flatChunk mi (chunkAt x i)).getD (u * mi.ir.dim + k) 0 := by
      intro u hu
      rw [← hsl, getD_take_drop]
      show _ < mi.mul * mi.ir.dim
      rw [← k2] at hk
      calc u * mi.ir.dim + k < u * mi.ir.dim + mi.ir.dim := by omega
        _ = (u + 1) * mi.ir.dim := by rw [Nat.succ_mul]
        _ ≤ mi.mul * mi.ir.dim := Nat.mul_le_mul_right _ hu
    simp only [pathRows, pathTerm, hin, ho', hi', hcd]
    have hsum : ((List.range mi.mul).map fun u => iw.2.getD (u * mo.mul + v) 0 *
        x.array.getD (Irreps.dim (f.irrepsIn.take i) + (u * mi.ir.dim + k)) 0) =
        (List.range mi.mul).map fun u => iw.2.getD (u * mo.mul + v) 0 *
          (flatChunk mi (chunkAt x i)).getD (u * mi.ir.dim + k) 0 := by
      apply List.map_congr_left
      intro u hu
      rw [hent u (by simpa using hu)]
    rw [hsum]
    generalize chunkAt x i = c at hsh
    cases c with
    | none =>
      have hz0 : ∀ n j, (List.replicate n (0 : K)).getD j 0 = 0 := by
        intro n j; simp only [List.getD, List.getElem?_replicate]; split <;> rfl
      simp only [Option.map_none, flatChunk, hz0, mul_zero]
      simp
    | some X =>
      simp only [shapeOk, Bool.and_eq_true, beq_iff_eq, List.all_eq_true] at hsh
      simp only [Option.map_some, flatChunk]
      obtain ⟨e1, e2⟩ := einsum_shape mo.mul mi.ir.dim (rows mi.mul mo.mul iw.2) X hsh.2
      have hmap : ((einsumUW mo.mul mi.ir.dim (rows mi.mul mo.mul iw.2) X).map fun r => r.map (iw.1.pathWeight * ·)).flatten =
          ((einsumUW mo.mul mi.ir.dim (rows mi.mul mo.mul iw.2) X).flatten).map (iw.1.pathWeight * ·) := by
        rw [List.map_flatten]
      rw [hmap, getD_map_mul, ← k2, flatten_getD _ _ e2 _ _ (by rw [k2]; exact hk)]
      congr 1
      have hge : (einsumUW mo.mul mi.ir.dim (rows mi.mul mo.mul iw.2) X).getD v [] =
          linComb mi.ir.dim ((rows mi.mul mo.mul iw.2).map fun row => row.getD v 0) X := by
        simp [einsumUW, List.getD, hv]
      rw [hge, linComb_get _ _ _ hsh.2]
      have hlr : ((List.range mi.ir.dim).map fun j =>
          (List.zipWith (fun a row => a * row.getD j 0) ((rows mi.mul mo.mul iw.2).map fun row => row.getD v 0) X).sum).getD k 0 =
          (List.zipWith (fun a row => a * row.getD k 0) ((rows mi.mul mo.mul iw.2).map fun row => row.getD v 0) X).sum := by
        simp [List.getD, show k < mi.ir.dim by rw [k2]; exact hk]
      rw [hlr, zipWith_sum_range _ _ (by rw [rows_length, hsh.1]), rows_length]
      congr 1
      apply List.map_congr_left
      intro u hu
      rw [List.mem_range] at hu
      rw [flatten_getD _ _ hsh.2 _ _ (by rw [k2]; exact hk), rows_getD _ _ _ _ hu, getD_take_drop _ _ _ _ hv]

end FLin
end E3nn

import Verif.Model.LinearModule
import Verif.Props.C28_C32
import Verif.Props.C59
import Verif.Lemmas.Offsets

/-!
# Lemmas about the `Linear` module (C89)
-/

namespace E3nn.LinM
open E3nn.IArr

/-- The number of entries of a weight of the given name. -/
def entries (q : PName) : ℕ :=
  match q.a with
  | some m => m.mul * q.b.mul
  | none => q.b.dim

/-- The sizes of the parameters that the layer asks for. -/
def Shaped (s : Source) (P : Params) : Prop := ∀ q, (P q).length =
  match s with
  | .vanilla => entries q
  | .indexed n _ => n * entries q
  | .mixed w => w.length * entries q
  | .perChannel w nc _ => w.length * (nc * entries q)

/-- The index is in range. -/
def Ready : Source → Prop
  | .indexed n i => i < n
  | .perChannel _ nc k => k < nc
  | _ => True

/-- Entry `t` of the weight that is applied: the parameter itself, the part of the parameter selected by the index or by
the channel, or the combination of the parts of the parameter with the given weights. -/
noncomputable def entry (g : ℝ) (s : Source) (p : List ℝ) (n t : ℕ) : ℝ :=
  match s with
  | .vanilla => p.getD t 0
  | .indexed _ i => p.getD (i * n + t) 0
  | .mixed w => Real.sqrt (1 / w.length) ^ g * ((List.range w.length).map fun j => w.getD j 0 * p.getD (j * n + t) 0).sum
  | .perChannel w nc k => Real.sqrt (1 / w.length) ^ g *
      ((List.range w.length).map fun j => w.getD j 0 * p.getD (j * (nc * n) + (k * n + t)) 0).sum

/-- The weights that are applied, by name. -/
noncomputable def effective (g : ℝ) (s : Source) (P : Params) : Params := fun q => (List.range (entries q)).map (entry g s (P q) (entries q))

theorem effective_vanilla (g : ℝ) {P : Params} (hP : Shaped .vanilla P) : effective g .vanilla P = P := by
  funext q
  have := hP q
  simp only at this
  apply List.ext_getElem
  · simp [effective, this]
  · intro i h1 h2
    simp [effective, entry, h2]

theorem effective_shaped (g : ℝ) (s : Source) (P : Params) : Shaped .vanilla (effective g s P) := fun q => by simp [effective]

theorem linComb_entries (n : ℕ) (w : List ℝ) (A : List (List ℝ)) (hA : ∀ r ∈ A, r.length = n) (hl : A.length = w.length) :
    FLin.linComb n w A = (List.range n).map fun t => ((List.range w.length).map fun j => w.getD j 0 * (A.getD j []).getD t 0).sum := by
  induction A generalizing w with
  | nil =>
    cases w with
    | nil => simp [FLin.linComb, List.map_const']
    | cons c cs => simp at hl
  | cons r A ih =>
    cases w with
    | nil => simp at hl
    | cons c cs =>
      rw [FLin.linComb, ih cs (fun r hr => hA r (by simp [hr])) (by simpa using hl)]
      have hr := hA r (by simp)
      apply List.ext_getElem
      · simp [hr]
      · intro t h1 h2
        have h3 : t < r.length := by simp at h2; omega
        simp [List.range_succ_eq_map, List.map_map, Function.comp_def, List.getElem?_eq_getElem h3]

theorem name_mem {irrepsIn irrepsOut : Irreps} {ps : Option (List (ℕ × ℕ))} {b : FLin.BiasArg} {a g : ℝ} {f : FLin ℝ}
    (hf : FLin.init irrepsIn irrepsOut ps b a g = .ok f) : f.irrepsIn = irrepsIn ∧ f.irrepsOut = irrepsOut ∧
      ∀ ins ∈ f.instructions, FLin.size ins = entries (nameOf irrepsIn irrepsOut ins) := by
  obtain ⟨sh, h1, h2, h3, rfl⟩ := FLin.init_ok hf
  refine ⟨rfl, rfl, ?_⟩
  obtain ⟨s1, s2⟩ := FLin.shapedPairs_ok h1
  intro i hi
  rcases List.mem_append.mp hi with hi | hi
  · unfold FLin.weighted at hi
    obtain ⟨t, ht, rfl⟩ := List.mem_map.mp hi
    obtain ⟨mi, mo, k1, k2, k3⟩ := s2 t ht
    simp [FLin.size, entries, nameOf, k1, k2, k3]
  · obtain ⟨k1, mo, k2, k3, -⟩ := FLin.biasIns_mem hi
    simp [FLin.size, entries, nameOf, k1, k2, k3]

theorem rows_entry {m d : ℕ} {l : List ℝ} {j t : ℕ} (hj : j < m) (ht : t < d) : ((rows m d l).getD j []).getD t 0 = l.getD (j * d + t) 0 := by
  rw [FLin.rows_getD _ _ _ _ hj]
  simp [List.getD, List.getElem?_take, ht, List.getElem?_drop]

theorem weight_eq {f : FLin ℝ} (g : ℝ) {s : Source} {P : Params} (hP : Shaped s P) (hs : Ready s) {ins : LinIns ℝ}
    (h : FLin.size ins = entries (nameOf f.irrepsIn f.irrepsOut ins)) :
    weight f g P s ins = .ok (effective g s P (nameOf f.irrepsIn f.irrepsOut ins)) := by
  have hq := hP (nameOf f.irrepsIn f.irrepsOut ins)
  cases s with
  | vanilla =>
    rw [effective_vanilla g hP]
    simp only at hq
    simp [weight, get, hq, h]
  | indexed n i =>
    simp only at hq
    simp only [Ready] at hs
    simp only [weight, get, h, hq, if_true, bind, Except.bind, if_pos hs, pure, Except.pure, Except.ok.injEq]
    have hl := rows_row_length n (entries (nameOf f.irrepsIn f.irrepsOut ins)) (P (nameOf f.irrepsIn f.irrepsOut ins)) hq.ge
    have hi : i < (rows n (entries (nameOf f.irrepsIn f.irrepsOut ins)) (P (nameOf f.irrepsIn f.irrepsOut ins))).length := by rw [rows_length]; exact hs
    have hrow := hl _ (List.getElem_mem hi)
    apply List.ext_getElem
    · simp [effective, hi, hrow]
    · intro t h1 h2
      have ht : t < entries (nameOf f.irrepsIn f.irrepsOut ins) := by simpa [effective] using h2
      have := rows_entry (l := P (nameOf f.irrepsIn f.irrepsOut ins)) hs ht
      rw [List.getD_eq_getElem _ _ h1] at this
      rw [this]
      simp [effective, entry]
  | mixed w =>
    simp only at hq
    simp only [weight, get, h, hq, if_true, bind, Except.bind, pure, Except.pure, Except.ok.injEq, mix]
    rw [linComb_entries _ _ _ (rows_row_length _ _ _ hq.ge) (rows_length _ _ _)]
    unfold effective
    rw [List.map_map]
    refine List.map_congr_left fun t ht => ?_
    simp only [Function.comp, entry]
    congr 2
    refine List.map_congr_left fun j hj => ?_
    rw [rows_entry (List.mem_range.mp hj) (List.mem_range.mp ht)]
  | perChannel w nc k =>
    simp only at hq
    simp only [Ready] at hs
    simp only [weight, get, h, hq, if_true, bind, Except.bind, pure, Except.pure, Except.ok.injEq, mix]
    have hlen : ∀ r ∈ (rows w.length (nc * entries (nameOf f.irrepsIn f.irrepsOut ins)) (P (nameOf f.irrepsIn f.irrepsOut ins))).map
        fun r => (rows nc (entries (nameOf f.irrepsIn f.irrepsOut ins)) r).getD k [], r.length = entries (nameOf f.irrepsIn f.irrepsOut ins) := by
      intro r hr
      obtain ⟨r', hr', rfl⟩ := List.mem_map.mp hr
      have hl := rows_row_length w.length _ _ hq.ge r' hr'
      have hk : k < (rows nc (entries (nameOf f.irrepsIn f.irrepsOut ins)) r').length := by rw [rows_length]; exact hs
      rw [List.getD_eq_getElem _ _ hk]
      exact rows_row_length nc _ _ hl.ge _ (List.getElem_mem hk)
    rw [linComb_entries _ _ _ hlen (by simp [rows_length])]
    unfold effective
    rw [List.map_map]
    refine List.map_congr_left fun t ht => ?_
    simp only [Function.comp, entry]
    congr 2
    refine List.map_congr_left fun j hj => ?_
    have hj' := List.mem_range.mp hj
    have ht' := List.mem_range.mp ht
    have hjr : j < (rows w.length (nc * entries (nameOf f.irrepsIn f.irrepsOut ins)) (P (nameOf f.irrepsIn f.irrepsOut ins))).length := by rw [rows_length]; exact hj'
    have e : (List.map (fun r => (rows nc (entries (nameOf f.irrepsIn f.irrepsOut ins)) r).getD k [])
          (rows w.length (nc * entries (nameOf f.irrepsIn f.irrepsOut ins)) (P (nameOf f.irrepsIn f.irrepsOut ins)))).getD j [] =
        (rows nc (entries (nameOf f.irrepsIn f.irrepsOut ins)) ((rows w.length (nc * entries (nameOf f.irrepsIn f.irrepsOut ins)) (P (nameOf f.irrepsIn f.irrepsOut ins))).getD j [])).getD k [] := by
      simp [List.getD, List.getElem?_eq_getElem hjr]
    rw [e, rows_entry hs ht', rows_entry hj' (row_lt hs ht')]

/-- The layer with any source of weights is the layer with the effective weights. -/
theorem core_eq (c : Cfg) (ch : Bool) (out : Irreps) {s : Source} {P : Params} (hP : Shaped s P) (hs : Ready s) (x : IArr ℝ) :
    core c ch out P (.ok s) x = core c ch out (effective c.g s P) (.ok .vanilla) x := by
  unfold core
  cases validate c ch x.irreps with
  | error e => rfl
  | ok _ =>
    simp only [bind, Except.bind]
    cases hf : FLin.init x.irreps out c.instructions (.all c.biases) c.a c.g with
    | error e => rfl
    | ok f =>
      simp only
      obtain ⟨f1, f2, f3⟩ := name_mem hf
      rw [← f1, ← f2] at f3
      rw [FLin.mapM_ok _ fun ins hi => weight_eq c.g hP hs (f3 ins hi),
        FLin.mapM_ok _ fun ins hi => weight_eq c.g (effective_shaped c.g s P) (s := .vanilla) trivial (f3 ins hi),
        effective_vanilla c.g (effective_shaped c.g s P)]

/-! ### What the layer does to a prepared input -/

theorem core_spec (c : Cfg) (ch : Bool) (out : Irreps) {s : Source} {P : Params} (hP : Shaped s P) (hs : Ready s) (hi : c.instructions = none)
    {z : IArr ℝ} (hz : z.Coherent) (hv : validate c ch z.irreps = .ok ()) :
    ∃ f y, FLin.init z.irreps out none (.all c.biases) c.a c.g = .ok f ∧
      WeightShapes f (f.instructions.map fun ins => effective c.g s P (nameOf z.irreps out ins)) ∧
      f.call (f.instructions.map fun ins => effective c.g s P (nameOf z.irreps out ins)) z = .ok y ∧ y.Coherent ∧ y.irreps = out ∧
      core c ch out P (.ok s) z = .ok y := by
  obtain ⟨f, hf, f1, f2⟩ := C28_init_returns z.irreps out (some c.biases) c.a c.g
  simp only [Option.elim] at hf
  obtain ⟨-, -, f3⟩ := name_mem hf
  have hw : WeightShapes f (f.instructions.map fun ins => effective c.g s P (nameOf z.irreps out ins)) := by
    unfold WeightShapes
    rw [List.map_map]
    refine List.map_congr_left fun ins hins => ?_
    simp only [Function.comp]
    rw [show ins.pathShape.foldl (· * ·) 1 = FLin.size ins from rfl, f3 ins hins]
    simp [effective]
  obtain ⟨y, y1, y2, y3⟩ := C28_call_returns hf _ hw z hz (by rfl)
  refine ⟨f, y, hf, hw, y1, y2, y3, ?_⟩
  rw [← f1, ← f2] at f3
  simp only [core, hi, hv, hf, bind, Except.bind]
  rw [FLin.mapM_ok _ fun ins hins => weight_eq c.g hP hs (f3 ins hins), f1, f2]
  exact y1

theorem tr_core {D : Irrep → List ℝ → List ℝ} (hD : FLin.LinAct D) (h0 : FLin.FixesScalars D) (c : Cfg) (ch : Bool) (out : Irreps) {s : Source} {P : Params}
    {x x' y : IArr ℝ} (hins : ∀ ps, c.instructions = some ps → ∀ p ∈ ps, ∀ mi mo, x.irreps[p.1]? = some mi → out[p.2]? = some mo → mi.ir = mo.ir)
    (hP : Shaped s P) (hs : Ready s) (h : Tr D x x') (hy : core c ch out P (.ok s) x = .ok y) :
    ∃ y', core c ch out P (.ok s) x' = .ok y' ∧ Tr D y y' := by
  unfold core at hy ⊢
  rw [h.irreps]
  cases hv : validate c ch x.irreps with
  | error e => rw [hv] at hy; cases hy
  | ok _ =>
    simp only [hv, bind, Except.bind] at hy ⊢
    cases hf : FLin.init x.irreps out c.instructions (.all c.biases) c.a c.g with
    | error e => rw [hf] at hy; cases hy
    | ok f =>
      simp only [hf] at hy ⊢
      obtain ⟨f1, f2, f3⟩ := name_mem hf
      rw [← f1, ← f2] at f3
      have hm := FLin.mapM_ok _ fun ins hi => weight_eq c.g hP hs (f3 ins hi)
      simp only [hm] at hy ⊢
      have hw : FLin.WeightsOk f (f.instructions.map fun ins => effective c.g s P (nameOf f.irrepsIn f.irrepsOut ins)) := by
        unfold FLin.WeightsOk
        rw [List.map_map]
        refine List.map_congr_left fun ins hi => ?_
        rw [f3 ins hi]
        simp [effective]
      exact FLin.tr_call hD (FLin.init_good hf hins) (Or.inl h0) hw h hy

theorem tr_prepInput {α : Type} [AddCommMonoid α] [Module ℝ α] {D : Irrep → List α → List α} (hD : Act D) (c : Cfg) {x x' z : IArr α} (h : Tr D x x') (hz : prepInput c x = .ok z) :
    ∃ z', prepInput c x' = .ok z' ∧ Tr D z z' := by
  unfold prepInput at hz ⊢
  split_ifs at hz ⊢
  · cases hv : x.removeZeroChunks with
    | error e => simp only [bind, Except.bind, hv] at hz; cases hz
    | ok v =>
      obtain ⟨v', v1, v2⟩ := tr_removeZeroChunks hD h hv
      simp only [bind, Except.bind, hv, v1] at hz ⊢
      exact tr_regroup hD v2 hz
  · cases hz
    exact ⟨x', rfl, h⟩

theorem tr_finish {α : Type} [AddCommMonoid α] [Module ℝ α] {D : Irrep → List α → List α} (hD : Act D) (c : Cfg) {x x' z : IArr α} (h : Tr D x x') (hz : finish c x = .ok z) :
    ∃ z', finish c x' = .ok z' ∧ Tr D z z' := by
  unfold finish at hz ⊢
  split_ifs at hz ⊢
  · exact tr_rechunk hD h hz
  · cases hz
    exact ⟨x', rfl, h⟩

theorem tr_callFrom {D : Irrep → List ℝ → List ℝ} (hD : FLin.LinAct D) (h0 : FLin.FixesScalars D) (c : Cfg) {s : Source} {P : Params}
    {x x' y : IArr ℝ} (hins : ∀ ps, c.instructions = some ps → ∀ z out, prepInput c x = .ok z → outIrreps c z.irreps = .ok out →
      ∀ p ∈ ps, ∀ mi mo, z.irreps[p.1]? = some mi → out[p.2]? = some mo → mi.ir = mo.ir)
    (hP : Shaped s P) (hs : Ready s) (h : Tr D x x') (hy : callFrom c P (.ok s) x = .ok y) :
    ∃ y', callFrom c P (.ok s) x' = .ok y' ∧ Tr D y y' := by
  unfold callFrom at hy ⊢
  cases hz : prepInput c x with
  | error e => rw [hz] at hy; cases hy
  | ok z =>
    obtain ⟨z', z1, z2⟩ := tr_prepInput hD.toAct c h hz
    simp only [hz, z1, bind, Except.bind, z2.irreps] at hy ⊢
    cases ho : outIrreps c z.irreps with
    | error e => rw [ho] at hy; cases hy
    | ok out =>
      simp only [ho] at hy ⊢
      cases hc : core c false out P (.ok s) z with
      | error e => rw [hc] at hy; cases hy
      | ok u =>
        obtain ⟨u', u1, u2⟩ := tr_core hD h0 c false out (fun ps hps => hins ps hps z out hz ho) hP hs z2 hc
        simp only [hc, u1] at hy ⊢
        exact tr_finish hD.toAct c u2 hy

section channel
variable {R : Type} [Semiring R] {α : Type} [AddCommMonoid α] [Module R α]

theorem tr_axisToMul {f : ℕ} {M : Irrep → List (List R)} {x x' : IArr (Fin f → α)} {u : IArr α}
    (h : Tr (fun ir => matVec (α := Fin f → α) (M ir)) x x') (hu : x.axisToMul = .ok u) :
    ∃ w, x'.axisToMul = .ok w ∧ Tr (fun ir => matVec (α := α) (M ir)) u w := by
  obtain ⟨u', u1, u2, u3, u4⟩ := axisToMul_spec h.inv
  rw [u1] at hu
  cases hu
  obtain ⟨w, w1, w2, w3, w4⟩ := axisToMul_spec h.inv'
  refine ⟨w, w1, u2, w2, ?_⟩
  rw [w3, w4, u3, u4, h.irreps, h.chunks, List.map_map]
  have e1 := h.inv.pairs.2.1
  have e2 := h.inv.pairs.2.2.1
  generalize x.irreps.zip x.chunks = ps at e1 e2 ⊢
  rw [← e1, ← e2, List.map_map, List.map_map, List.zip_map', List.zip_map', List.map_map]
  apply List.map_congr_left
  rintro ⟨m, c⟩ _
  cases c with
  | none => rfl
  | some c => simp [T, actRows, joinRows_matVec]

theorem tr_mulToAxis {f : ℕ} (hf : 0 < f) {M : Irrep → List (List R)} (hM : ∀ ir, (M ir).length = 2 * ir.l + 1) {x x' : IArr α} {u : IArr (Fin f → α)}
    (h : Tr (fun ir => matVec (α := α) (M ir)) x x') (hu : x.mulToAxis f = .ok u) :
    ∃ w, x'.mulToAxis f = .ok w ∧ Tr (fun ir => matVec (α := Fin f → α) (M ir)) u w := by
  have hdiv : ∀ m ∈ x.irreps, f ∣ m.mul := by
    unfold mulToAxis at hu
    split_ifs at hu with h0 h00
    intro m hm
    simp only [Bool.not_eq_true', Bool.not_eq_false, List.all_eq_true, beq_iff_eq] at h00
    exact Nat.dvd_of_mod_eq_zero (h00 m hm)
  obtain ⟨u', u1, u2, u3, u4⟩ := mulToAxis_spec h.inv hf hdiv
  rw [u1] at hu
  cases hu
  obtain ⟨w, w1, w2, w3, w4⟩ := mulToAxis_spec h.inv' hf (by rw [h.irreps]; exact hdiv)
  refine ⟨w, w1, u2, w2, ?_⟩
  rw [w3, w4, u3, u4, h.pairs, h.irreps, List.map_map]
  have e1 := h.inv.pairs.2.1
  have e3 := fun p (hp : p ∈ x.irreps.zip x.chunks) => hdiv p.1 (List.of_mem_zip hp).1
  have e4 := h.inv.pairs.1
  generalize x.irreps.zip x.chunks = ps at e1 e3 e4 ⊢
  rw [← e1, List.map_map, List.zip_map', List.zip_map', List.map_map]
  apply List.map_congr_left
  rintro ⟨m, c⟩ hp
  have hs := e4 _ hp
  cases c with
  | none => rfl
  | some c =>
    simp only [shapeOk, Bool.and_eq_true, beq_iff_eq, List.all_eq_true] at hs
    simp only [T, actRows, Option.map_some, Function.comp_apply, Prod.mk.injEq, Option.some.injEq, true_and]
    apply splitRows_matVec
    · exact hM m.ir
    · rw [Nat.mul_div_cancel' (e3 _ hp)]; exact hs.1
    · exact hs.2

end channel

end E3nn.LinM

import Verif.Model.LinearEquinox
import Verif.Props.C89
import Verif.Props.C89Refuse
import Verif.Props.C04_C11

/-!
# Lemmas about the `Linear` module of Equinox (C104)
-/

namespace E3nn.LinEqx
open E3nn.IArr E3nn.LinM

/-- The module after training: the same fields, and parameters with the same names and numbers of entries. -/
def Trained (m₀ m : Module) : Prop :=
  m.cfg = m₀.cfg ∧ m.irrepsIn = m₀.irrepsIn ∧ m.irrepsOut = m₀.irrepsOut ∧ m.lin = m₀.lin ∧
  m.weights.map (fun q => (q.1, q.2.length)) = m₀.weights.map fun q => (q.1, q.2.length)

/-- The entries of the parameter with a given name. -/
def Module.params (m : Module) : Params := fun q => ((m.weights.find? fun r => r.1 == q).map Prod.snd).getD []

/-- The output irreps of the module: those of the argument that the input has, the equal neighbours merged, or all if `force_irreps_out`. -/
def outOf (c : Cfg) : Irreps :=
  if c.force then c.irrepsOut else Irreps.simplify (c.irrepsOut.filter fun m => decide (∃ a ∈ c.irrepsIn, 0 < a.mul ∧ a.ir = m.ir))

/-- The layer that the first argument of the call selects. -/
def Uses (c : Cfg) (lead : Option ℕ) (k : ℕ) (W : Weights) (s : Source) : Prop :=
  match c.kind with
  | .vanilla => W = .none ∧ s = .vanilla
  | .indexed => c.perChannel = false ∧ ∃ n i, c.numIndexed = some n ∧ 0 < n ∧ W = .index i ∧ s = .indexed n (min i (n - 1))
  | .mixed => c.numIndexed = none ∧ ∃ w, w ≠ [] ∧ c.weightsDim = some w.length ∧ (W = .floats w ∨ ∃ b : IArr ℝ, W = .irreps b ∧ b.irreps.isScalar = true ∧ b.array = w) ∧ s = .mixed w
  | .mixedPerChannel => c.numIndexed = none ∧ ∃ w nc, w ≠ [] ∧ c.weightsDim = some w.length ∧ (W = .floats w ∨ ∃ b : IArr ℝ, W = .irreps b ∧ b.irreps.isScalar = true ∧ b.array = w) ∧
      c.channelIn = some nc ∧ lead = some nc ∧ k < nc ∧ s = .perChannel w nc k
  | .other => False

/-- The number of copies of the weights of a path. -/
def copies : Source → ℕ
  | .vanilla => 1
  | .indexed n _ => n
  | .mixed w => w.length
  | .perChannel w nc _ => w.length * nc

/-- The module fits the selected layer. -/
def Fits (c : Cfg) (s : Source) : Prop :=
  Ready s ∧ (∃ std, c.shape = .ok (copies s, std)) ∧
  match s with
  | .mixed w => c.weightsDim = some w.length
  | .perChannel w _ _ => c.weightsDim = some w.length
  | _ => True

theorem uses_select {m : Module} {lead : Option ℕ} {k : ℕ} {W : Weights} {s : Source} (h : Uses m.cfg lead k W s) : select m lead k W = .ok s ∧ Fits m.cfg s := by
  unfold Uses at h
  cases hk : m.cfg.kind <;> rw [hk] at h <;> simp only at h
  · obtain ⟨rfl, rfl⟩ := h
    exact ⟨by simp [select, hk], trivial, ⟨1, by simp [Cfg.shape, hk, copies]⟩, trivial⟩
  · obtain ⟨hp, n, i, hn, h0, rfl, rfl⟩ := h
    refine ⟨by simp [select, hk, hp, hn, bind, Except.bind], ?_, ⟨1, by simp [Cfg.shape, hk, hn, copies]⟩, trivial⟩
    show min i (n - 1) < n
    omega
  · obtain ⟨hi, w, hw, hd, hW, rfl⟩ := h
    refine ⟨?_, trivial, ⟨Real.sqrt (1 / w.length) ^ (1 - m.cfg.g), ?_⟩, hd⟩
    · rcases hW with rfl | ⟨b, rfl, hb, rfl⟩ <;> simp [select, hk, hi, hw, bind, Except.bind, *]
    · simp [Cfg.shape, hk, hd, copies, hw]
  · obtain ⟨hi, w, nc, hw, hd, hW, hc, rfl, hk', rfl⟩ := h
    refine ⟨?_, hk', ⟨Real.sqrt (1 / w.length) ^ (1 - m.cfg.g), ?_⟩, hd⟩
    · rcases hW with rfl | ⟨b, rfl, hb, rfl⟩ <;> simp [select, hk, hi, hw, bind, Except.bind, *]
    · simp [Cfg.shape, hk, hd, hc, copies, hw]

/-! ### The constructor -/

theorem outIrreps_eq {c : Cfg} {irrepsIn : Irreps} (h : c.irrepsIn.regroup = .ok irrepsIn) : outIrreps c irrepsIn = .ok (outOf c) := by
  unfold outIrreps outOf
  split_ifs
  · rfl
  · simp only [Irreps.filter', bind, Except.bind, pure, Except.pure]
    simp only [Option.isNone_some, Bool.false_and, Bool.false_eq_true, if_false, Option.isSome_some, Option.isSome_none, Bool.and_false]
    congr 2
    refine List.filter_congr fun m _ => ?_
    obtain ⟨g, g1, g2, g3, g4⟩ := C07_regroup_spec c.irrepsIn
    rw [h] at g1
    cases g1
    have key : ∀ (ms : Irreps) (ir : Irrep), (∃ a ∈ ms, 0 < a.mul ∧ a.ir = ir) ↔ 0 < ms.count ir := by
      intro ms ir
      rw [Irreps.count_eq_count_expand, List.count_pos_iff]
      unfold expand
      simp only [List.mem_flatMap, List.mem_replicate]
      exact ⟨fun ⟨a, a1, a2, a3⟩ => ⟨a, a1, by omega, a3.symm⟩, fun ⟨a, a1, a2, a3⟩ => ⟨a, a1, by omega, a3.symm⟩⟩
    have e : (∃ a ∈ c.irrepsIn, 0 < a.mul ∧ a.ir = m.ir) ↔ m.ir ∈ irrepsIn.map MulIrrep.ir := by
      rw [key, ← g4, ← key, List.mem_map]
      exact ⟨fun ⟨a, a1, _, a3⟩ => ⟨a, a1, a3⟩, fun ⟨a, a1, a3⟩ => ⟨a, a1, g3 a a1, a3⟩⟩
    by_cases hm : m.ir ∈ irrepsIn.map MulIrrep.ir
    · rw [decide_eq_true (e.mpr hm)]; simpa using hm
    · rw [decide_eq_false (fun h => hm (e.mp h))]; simpa using hm

theorem names_nodup {irrepsIn irrepsOut : Irreps} {b : Bool} {a g : ℝ} {f : FLin ℝ} (hf : FLin.init irrepsIn irrepsOut none (.all b) a g = .ok f) :
    (f.instructions.map (nameOf irrepsIn irrepsOut)).Nodup := by
  obtain ⟨sh, h1, -, -, rfl⟩ := FLin.init_ok hf
  obtain ⟨s1, s2⟩ := FLin.shapedPairs_ok h1
  simp only [Option.getD_none] at s1
  have h1 : ((FLin.weighted a g sh ++ FLin.biasIns irrepsOut (FLin.resolveBiases irrepsOut (.all b)) : List (LinIns ℝ)).map fun ins => (ins.iIn, ins.iOut)).Nodup := by
    rw [List.map_append, List.nodup_append]
    refine ⟨?_, ?_, ?_⟩
    · unfold FLin.weighted
      rw [List.map_map]
      have hnd := FLin.defaultPairs_nodup irrepsIn irrepsOut
      rw [← s1] at hnd
      have := hnd.map (f := fun p : Nat × Nat => (some p.1, p.2)) (by
        rintro ⟨a, b⟩ ⟨c, d⟩ h; simpa using h)
      rw [List.map_map] at this
      exact this
    · unfold FLin.biasIns
      have : ∀ (l : List (Bool × MulIrrep)) (k : ℕ), (((l.zipIdx k).filterMap fun q => if q.1.1 then some (⟨none, q.2, [q.1.2.dim], 1, 0⟩ : LinIns ℝ) else none).map fun ins => (ins.iIn, ins.iOut)).Nodup ∧
          ∀ ins ∈ ((l.zipIdx k).filterMap fun q => if q.1.1 then some (⟨none, q.2, [q.1.2.dim], 1, 0⟩ : LinIns ℝ) else none), k ≤ ins.iOut := by
        intro l
        induction l with
        | nil => intro k; simp
        | cons p l ih =>
          intro k
          obtain ⟨i1, i2⟩ := ih (k + 1)
          rw [List.zipIdx_cons, List.filterMap_cons]
          cases hp : p.1 <;> simp only [hp, Bool.false_eq_true, if_false, if_true]
          · exact ⟨i1, fun ins hi => by have := i2 ins hi; omega⟩
          · refine ⟨?_, ?_⟩
            · rw [List.map_cons, List.nodup_cons]
              refine ⟨?_, i1⟩
              rw [List.mem_map]
              rintro ⟨ins, hi, e⟩
              have := i2 ins hi
              simp only [Prod.mk.injEq] at e
              omega
            · intro ins hi
              rcases List.mem_cons.mp hi with rfl | hi
              · exact le_refl _
              · have := i2 ins hi; omega
      exact (this _ 0).1
    · intro p hp q hq e
      obtain ⟨i, hi, rfl⟩ := List.mem_map.mp hp
      obtain ⟨j, hj, rfl⟩ := List.mem_map.mp hq
      unfold FLin.weighted at hi
      obtain ⟨t, -, rfl⟩ := List.mem_map.mp hi
      rw [(FLin.biasIns_mem hj).1] at e
      simp at e
  have h2 : ∀ l : List (LinIns ℝ), (l.map fun ins => (ins.iIn, ins.iOut)) = (l.map (nameOf irrepsIn irrepsOut)).map fun q => (q.iIn, q.iOut) := by
    intro l
    rw [List.map_map]
    rfl
  rw [h2] at h1
  exact List.Nodup.of_map _ h1

/-- What the constructor returns. -/
theorem init_spec {c : Cfg} {rnd : ℕ → ℕ → ℝ} {m : Module} (h : init c rnd = .ok m) :
    m.cfg = c ∧ c.irrepsIn.regroup = .ok m.irrepsIn ∧ m.irrepsOut = outOf c ∧ FLin.init m.irrepsIn ((outOf c).mul (c.channelOut.getD 1)) none (.all c.biases) c.a c.g = .ok m.lin ∧
      getWeights c rnd m.lin = .ok m.weights := by
  unfold init at h
  cases hr : c.irrepsIn.regroup with
  | error e => rw [hr] at h; cases h
  | ok r =>
    simp only [hr, bind, Except.bind] at h
    split_ifs at h with hc
    rw [outIrreps_eq hr] at h
    simp only at h
    cases hf : FLin.init r ((outOf c).mul (c.channelOut.getD 1)) none (.all c.biases) c.a c.g with
    | error e => rw [hf] at h; cases h
    | ok f =>
      simp only [hf] at h
      cases hw : getWeights c rnd f with
      | error e => rw [hw] at h; cases h
      | ok ws =>
        simp only [hw, pure, Except.pure] at h
        cases h
        exact ⟨rfl, rfl, rfl, hf, hw⟩

theorem mapM_error {α β : Type} {f : α → Except PyErr β} {e : PyErr} : ∀ {l : List α}, l ≠ [] → (∀ a ∈ l, f a = .error e) → l.mapM f = .error e
  | [], h, _ => absurd rfl h
  | a :: l, _, h => by rw [List.mapM_cons, h a (by simp)]; rfl

theorem getWeights_ok {c : Cfg} {rnd : ℕ → ℕ → ℝ} {f : FLin ℝ} {n : ℕ} {std : ℝ} (h : c.shape = .ok (n, std)) :
    getWeights c rnd f = .ok (f.instructions.zipIdx.map fun q => (nameOf f.irrepsIn f.irrepsOut q.1, (List.range (n * FLin.size q.1)).map fun j => std * q.1.weightStd * rnd q.2 j)) := by
  unfold getWeights
  refine FLin.mapM_ok _ fun q _ => ?_
  simp only [h, bind, Except.bind, pure, Except.pure]

theorem getWeights_error {c : Cfg} {rnd : ℕ → ℕ → ℝ} {f : FLin ℝ} {e : PyErr} (h : c.shape = .error e) (hf : f.instructions ≠ []) : getWeights c rnd f = .error e := by
  unfold getWeights
  refine mapM_error (fun h => hf ?_) fun q _ => ?_
  · simpa using h
  · simp only [h, bind, Except.bind]

/-- The parameters of a trained module: the names are those of the paths, each once, and the numbers of entries are those that the layer needs. -/
theorem weights_spec {c : Cfg} {rnd : ℕ → ℕ → ℝ} {m₀ m : Module} (h : init c rnd = .ok m₀) (ht : Trained m₀ m) {s : Source} (hs : Fits c s) :
    (∀ ins ∈ m.lin.instructions, m.get (nameOf m.lin.irrepsIn m.lin.irrepsOut ins) = .ok (m.params (nameOf m.lin.irrepsIn m.lin.irrepsOut ins)) ∧
      (m.params (nameOf m.lin.irrepsIn m.lin.irrepsOut ins)).length = copies s * FLin.size ins) := by
  obtain ⟨i1, i2, i3, i4, i5⟩ := init_spec h
  obtain ⟨t1, t2, t3, t4, t5⟩ := ht
  obtain ⟨-, ⟨std, hsh⟩, -⟩ := hs
  rw [getWeights_ok hsh] at i5
  have i5 := Except.ok.inj i5
  obtain ⟨f1, f2, f3⟩ := name_mem i4
  have hnd := names_nodup i4
  intro ins hins
  rw [t4] at hins ⊢
  -- the list of names and lengths
  have hl : m.weights.map (fun q => (q.1, q.2.length)) = m₀.lin.instructions.map fun ins => (nameOf m₀.lin.irrepsIn m₀.lin.irrepsOut ins, copies s * FLin.size ins) := by
    rw [t5, ← i5, List.map_map]
    have : (fun ins : LinIns ℝ => (nameOf m₀.lin.irrepsIn m₀.lin.irrepsOut ins, copies s * FLin.size ins)) =
        fun ins => (nameOf m₀.lin.irrepsIn m₀.lin.irrepsOut ins, copies s * FLin.size ins) := rfl
    conv_rhs => rw [← List.zipIdx_map_fst 0 m₀.lin.instructions, List.map_map]
    refine List.map_congr_left fun q _ => ?_
    simp
  have hnames : m.weights.map Prod.fst = m₀.lin.instructions.map (nameOf m₀.lin.irrepsIn m₀.lin.irrepsOut) := by
    have := congrArg (List.map Prod.fst) hl
    rw [List.map_map, List.map_map] at this
    exact this
  have hmem : (nameOf m₀.lin.irrepsIn m₀.lin.irrepsOut ins, copies s * FLin.size ins) ∈ m.weights.map (fun q => (q.1, q.2.length)) := by
    rw [hl]
    exact List.mem_map.mpr ⟨ins, hins, rfl⟩
  obtain ⟨r, hr, e⟩ := List.mem_map.mp hmem
  simp only [Prod.mk.injEq] at e
  have hnd' : (m.weights.map Prod.fst).Nodup := by rw [hnames, f1, f2]; exact hnd
  have hfind : (m.weights.find? fun r => r.1 == nameOf m₀.lin.irrepsIn m₀.lin.irrepsOut ins) = some r := by
    cases hq : m.weights.find? fun r => r.1 == nameOf m₀.lin.irrepsIn m₀.lin.irrepsOut ins with
    | none =>
      exfalso
      have := List.find?_eq_none.mp hq r hr
      simp [e.1] at this
    | some r' =>
      have h1 := List.mem_of_find?_eq_some hq
      have h2 := List.find?_some hq
      simp only [beq_iff_eq] at h2
      exact congrArg some (List.inj_on_of_nodup_map hnd' h1 hr (by rw [h2, e.1]))
  unfold Module.get Module.params
  rw [hfind]
  exact ⟨rfl, e.2⟩

/-! ### The layer -/

/-- Parameters for all names. -/
noncomputable def total (m : Module) (s : Source) : Params := fun q =>
  if (m.params q).length = copies s * entries q then m.params q else List.replicate (copies s * entries q) 0

theorem total_shaped (m : Module) (s : Source) : Shaped s (total m s) := by
  intro q
  unfold total
  have : (if (m.params q).length = copies s * entries q then m.params q else List.replicate (copies s * entries q) 0).length = copies s * entries q := by
    split_ifs with h
    · exact h
    · simp
  rw [this]
  cases s <;> simp [copies, Nat.mul_assoc]

/-- The corresponding settings of the Flax and Haiku module. -/
noncomputable def base (m : Module) : LinM.Cfg := ⟨m.irrepsOut, none, m.cfg.biases, none, none, true, true, m.cfg.a, m.cfg.g⟩

theorem weight_eq {c : Cfg} {rnd : ℕ → ℕ → ℝ} {m₀ m : Module} (h : init c rnd = .ok m₀) (ht : Trained m₀ m) {s : Source} (hs : Fits c s) {ins : LinIns ℝ} (hins : ins ∈ m.lin.instructions) :
    m.weight s ins = LinM.weight m.lin c.g (total m s) s ins := by
  obtain ⟨w1, w2⟩ := weights_spec h ht hs ins hins
  obtain ⟨i1, i2, i3, i4, i5⟩ := init_spec h
  obtain ⟨f1, f2, f3⟩ := name_mem i4
  obtain ⟨t1, t2, t3, t4, t5⟩ := ht
  have hsz : FLin.size ins = entries (nameOf m.lin.irrepsIn m.lin.irrepsOut ins) := by
    rw [t4] at hins ⊢
    rw [f1, f2]
    exact f3 ins hins
  have hP : total m s (nameOf m.lin.irrepsIn m.lin.irrepsOut ins) = m.params (nameOf m.lin.irrepsIn m.lin.irrepsOut ins) := by
    unfold total
    rw [if_pos (by rw [w2, hsz])]
  have hc : m.cfg = c := t1.trans i1
  obtain ⟨hr, -, hd⟩ := hs
  unfold Module.weight
  rw [w1]
  cases s with
  | vanilla => simp [LinM.weight, LinM.get, hP, w2, copies, bind, Except.bind, pure, Except.pure]
  | indexed n i =>
    have : i < n := hr
    simp [LinM.weight, LinM.get, hP, w2, copies, bind, Except.bind, pure, Except.pure, this]
  | mixed w => simp only at hd; simp [LinM.weight, LinM.get, hP, w2, copies, bind, Except.bind, pure, Except.pure, hc, hd]
  | perChannel w nc k => simp only at hd; simp [LinM.weight, LinM.get, hP, w2, copies, bind, Except.bind, pure, Except.pure, hc, hd, Nat.mul_assoc]

/-- The terms with a positive multiplicity are not marked as zero. -/
def Unflagged {α : Type} (x : IArr α) : Prop := ∀ (j : ℕ) (m : MulIrrep), x.irreps[j]? = some m → 0 < m.mul → x.zeroFlags[j]? = some false

theorem live_regroup {x : IArr ℝ} (hx : x.Coherent) (h : Unflagged x) : Irreps.regroup ((live x).map Prod.fst) = x.irreps.regroup := by
  rw [C07_regroup_canonical]
  intro ir
  have hl : x.terms.length = x.zeroFlags.length := by
    have a := termsOf_length x.irreps x.array
    have b := hx.inv.flags.lengths.2
    unfold IArr.terms
    omega
  have key : ∀ (ts : List (MulIrrep × List ℝ)) (fs : List Bool), ts.length = fs.length → (∀ (j : ℕ) (m : MulIrrep), (ts.map Prod.fst)[j]? = some m → 0 < m.mul → fs[j]? = some false) →
      Irreps.count ((((ts.zip fs).filter fun t => !t.2).map Prod.fst).map Prod.fst) ir = Irreps.count (ts.map Prod.fst) ir := by
    intro ts
    induction ts with
    | nil => intro fs _ _; simp
    | cons t ts ih =>
      intro fs hl hf
      cases fs with
      | nil => simp at hl
      | cons b fs =>
        have ih := ih fs (by simpa using hl) fun j m hj hm => by simpa using hf (j + 1) m (by simpa using hj) hm
        rw [Irreps.count_eq_count_expand, Irreps.count_eq_count_expand] at ih ⊢
        cases b
        · simp only [List.zip_cons_cons, List.filter_cons, Bool.not_false, if_true, List.map_cons]
          unfold expand at ih ⊢
          rw [List.flatMap_cons, List.flatMap_cons, List.count_append, List.count_append, ih]
        · simp only [List.zip_cons_cons, List.filter_cons, Bool.not_true, Bool.false_eq_true, if_false, List.map_cons]
          have h0 : t.1.mul = 0 := by
            by_contra h0
            have := hf 0 t.1 (by simp) (by omega)
            simp at this
          unfold expand at ih ⊢
          rw [List.flatMap_cons, List.count_append, ih, h0]
          simp
  have := key x.terms x.zeroFlags hl (by rw [terms_fst]; exact h)
  rw [terms_fst] at this
  exact this

/-- The call up to the layer is the layer of the Flax and Haiku modules. -/
theorem layer_eq {c : Cfg} {rnd : ℕ → ℕ → ℝ} {m₀ m : Module} (h : init c rnd = .ok m₀) (ht : Trained m₀ m) {lead : Option ℕ} {k : ℕ} {W : Weights} {s : Source} (hu : Uses c lead k W s)
    (hch : c.channelIn = none ∨ c.channelIn = lead) {x : IArr ℝ} (hx : x.Coherent) (hi : x.irreps.regroup = c.irrepsIn.regroup) (hf : Unflagged x) :
    ∃ z, prepInput (base m) x = .ok z ∧ Prepared (base m) x z ∧ z.irreps = m.irrepsIn ∧
      layer m lead k W x = core (base m) false ((outOf c).mul (c.channelOut.getD 1)) (total m s) (.ok s) z := by
  obtain ⟨i1, i2, i3, i4, i5⟩ := init_spec h
  have hc : m.cfg = c := ht.1.trans i1
  have hu' : Uses m.cfg lead k W s := by rw [hc]; exact hu
  obtain ⟨s1, s2⟩ := uses_select hu'
  obtain ⟨z, z1, z2⟩ := prepInput_spec (base m) hx
  have hz : z.irreps = m.irrepsIn := by
    have := (z2.2.2 rfl).1
    rw [live_regroup hx hf, hi, i2] at this
    rw [← Except.ok.inj this, ht.2.1]
  refine ⟨z, z1, z2, hz, ?_⟩
  have hz1 := z1
  unfold prepInput at hz1
  rw [if_pos (show (base m).simp = true from rfl)] at hz1
  have hck : checkChannel m.cfg.channelIn lead = .ok () := by
    rw [hc]
    rcases hch with e | e
    · rw [e]; rfl
    · rw [e]
      cases hl : lead with
      | some n => simp [checkChannel]
      | none => rfl
  unfold layer core
  rw [hi, i2]
  simp only [bind, Except.bind]
  rw [if_neg (by rw [ht.2.1]; simp), hck]
  simp only
  cases hv : x.removeZeroChunks with
  | error e => rw [hv] at hz1; cases hz1
  | ok v =>
    simp only [hv, bind, Except.bind] at hz1
    simp only [hz1, s1, LinM.validate, base, hz, hc]
    rw [ht.2.1, i4]
    simp only
    rw [ht.2.2.2.1]
    have : m₀.lin.instructions.mapM (m.weight s) = m₀.lin.instructions.mapM (LinM.weight m₀.lin c.g (total m s) s) := by
      rw [← ht.2.2.2.1]
      have key : ∀ l : List (LinIns ℝ), (∀ i ∈ l, i ∈ m.lin.instructions) → l.mapM (m.weight s) = l.mapM (LinM.weight m.lin c.g (total m s) s) := by
        intro l
        induction l with
        | nil => intro _; rfl
        | cons a l ih =>
          intro hl
          rw [List.mapM_cons, List.mapM_cons, weight_eq h ht (by rw [← hc]; exact s2) (hl a (by simp)), ih fun i hi => hl i (by simp [hi])]
      exact key _ fun i hi => hi
    rw [this]

end E3nn.LinEqx

import Verif.Model.Linear
import Verif.Lemmas.Transform

namespace E3nn
open IArr

namespace FLin

variable {K : Type} [CommRing K]

/-- The constructor's guarantees that matter: indices in range, path shapes taken from the
multiplicities, biases on `0e` only, and equal irreps on both ends of a path. -/
def Good (f : FLin K) : Prop := ∀ ins ∈ f.instructions, ∃ mo, f.irrepsOut[ins.iOut]? = some mo ∧
  match ins.iIn with
  | none => mo.ir = ⟨0, .e⟩ ∧ ins.pathShape = [mo.dim]
  | some i => ∃ mi, f.irrepsIn[i]? = some mi ∧ mi.ir = mo.ir ∧ ins.pathShape = [mi.mul, mo.mul]

/-- One weight per instruction, with the right number of entries. -/
def WeightsOk (f : FLin K) (ws : List (List K)) : Prop :=
  ws.map List.length = f.instructions.map size

/-- The result of one path, as rows. -/
def pathRows (f : FLin K) (cs : List (Chunk K)) (iw : LinIns K × List K) : Chunk K :=
  match iw.1.iIn with
  | none => some (rows (f.irrepsOut.getD iw.1.iOut ⟨0, ⟨0, .e⟩⟩).mul 1 (iw.2.map (iw.1.pathWeight * ·)))
  | some i =>
    (cs.getD i none).map fun x =>
      (einsumUW (f.irrepsOut.getD iw.1.iOut ⟨0, ⟨0, .e⟩⟩).mul (f.irrepsIn.getD i ⟨0, ⟨0, .e⟩⟩).ir.dim
        (rows (f.irrepsIn.getD i ⟨0, ⟨0, .e⟩⟩).mul (f.irrepsOut.getD iw.1.iOut ⟨0, ⟨0, .e⟩⟩).mul iw.2) x).map
        fun r => r.map (iw.1.pathWeight * ·)

def sumChunks (cs : List (Chunk K)) : Chunk K :=
  match cs.filterMap id with
  | [] => none
  | x :: l => some (l.foldl addRows x)

theorem linComb_length (d : Nat) (cs : List K) (rs : List (List K)) (h : ∀ r ∈ rs, r.length = d) :
    (linComb d cs rs).length = d := by
  induction cs generalizing rs with
  | nil => simp [linComb]
  | cons c cs ih =>
    cases rs with
    | nil => simp [linComb]
    | cons r rs => simp [linComb, ih rs (fun r hr => h r (by simp [hr])), h r (by simp)]

theorem einsum_shape (mulOut d : Nat) (w x : List (List K)) (h : ∀ r ∈ x, r.length = d) :
    (einsumUW mulOut d w x).length = mulOut ∧ ∀ r ∈ einsumUW mulOut d w x, r.length = d := by
  refine ⟨by simp [einsumUW], ?_⟩
  intro r hr
  obtain ⟨j, _, rfl⟩ := List.mem_map.mp hr
  exact linComb_length _ _ _ h

theorem addRows_shape {m : MulIrrep} {x y : List (List K)} (hx : shapeOk m (some x) = true)
    (hy : shapeOk m (some y) = true) : shapeOk m (some (addRows x y)) = true := by
  simp only [shapeOk, Bool.and_eq_true, beq_iff_eq, List.all_eq_true, addRows] at *
  refine ⟨by simp [hx.1, hy.1], ?_⟩
  intro r hr
  obtain ⟨i, hi, rfl⟩ := List.getElem_of_mem hr
  simp only [List.getElem_zipWith, List.length_zipWith]
  rw [hx.2 _ (List.getElem_mem _), hy.2 _ (List.getElem_mem _)]; simp

theorem foldl_addRows_shape {m : MulIrrep} (l : List (List (List K))) (x : List (List K))
    (hx : shapeOk m (some x) = true) (hl : ∀ y ∈ l, shapeOk m (some y) = true) :
    shapeOk m (some (l.foldl addRows x)) = true := by
  induction l generalizing x with
  | nil => exact hx
  | cons y l ih =>
    exact ih _ (addRows_shape hx (hl y (by simp))) (fun z hz => hl z (by simp [hz]))

theorem sumChunks_shape {m : MulIrrep} {cs : List (Chunk K)} (h : ∀ c ∈ cs, shapeOk m c = true) :
    shapeOk m (sumChunks cs) = true := by
  unfold sumChunks
  have h' : ∀ x ∈ cs.filterMap id, shapeOk m (some x) = true := by
    intro x hx
    obtain ⟨c, hc, e⟩ := List.mem_filterMap.mp hx
    simp only [id] at e; subst e; exact h _ hc
  generalize cs.filterMap id = l at h'
  cases l with
  | nil => rfl
  | cons x l => exact foldl_addRows_shape _ _ (h' x (by simp)) (fun y hy => h' y (by simp [hy]))

theorem reshape_flat {m : MulIrrep} {x : List (List K)} (h : shapeOk m (some x) = true) :
    reshape m.mul m.ir.dim x.flatten = .ok x := by
  have hl := flatChunk_length h
  simp only [flatChunk, MulIrrep.dim] at hl
  unfold reshape
  rw [if_pos hl]
  simp only [shapeOk, Bool.and_eq_true, beq_iff_eq, List.all_eq_true] at h
  have := rows_of_flatten m.mul m.ir.dim x [] h.1 h.2
  simpa using this

theorem sumTensors_eq {m : MulIrrep} (cs : List (Chunk K)) (h : ∀ c ∈ cs, shapeOk m c = true) :
    sumTensors m.mul m.ir.dim (cs.map fun c => c.map List.flatten) = .ok (sumChunks cs) := by
  have e : (cs.map fun c => c.map List.flatten).filterMap id = (cs.filterMap id).map List.flatten := by
    induction cs with
    | nil => rfl
    | cons c cs ih =>
      have := ih fun c hc => h c (by simp [hc])
      cases c <;> simp_all
  have h' : ∀ x ∈ cs.filterMap id, shapeOk m (some x) = true := by
    intro x hx
    obtain ⟨c, hc, e⟩ := List.mem_filterMap.mp hx
    simp only [id] at e; subst e; exact h _ hc
  unfold sumTensors sumChunks
  rw [e]
  generalize cs.filterMap id = l at h'
  cases l with
  | nil => rfl
  | cons x l =>
    have k : (l.map List.flatten).mapM (reshape m.mul m.ir.dim) = .ok l := by
      have h2 : ∀ y ∈ l, shapeOk m (some y) = true := fun y hy => h' y (by simp [hy])
      clear h' h e
      induction l with
      | nil => rfl
      | cons y l ih =>
        rw [List.map_cons, List.mapM_cons, reshape_flat (h2 y (by simp)), ih fun z hz => h2 z (by simp [hz])]
        rfl
    simp only [List.map_cons]
    rw [reshape_flat (h' x (by simp))]
    show (do let l ← (l.map List.flatten).mapM (reshape m.mul m.ir.dim); return some (l.foldl addRows x)) = _
    rw [k]; rfl

theorem mapM_ok {γ δ : Type} {g : γ → Except PyErr δ} {h : γ → δ} (l : List γ) (hl : ∀ a ∈ l, g a = .ok (h a)) :
    l.mapM g = .ok (l.map h) := by
  induction l with
  | nil => rfl
  | cons a l ih =>
    rw [List.mapM_cons, hl a (by simp), ih fun b hb => hl b (by simp [hb])]; rfl

omit [CommRing K] in
theorem WeightsOk.mem {f : FLin K} {ws : List (List K)} (h : WeightsOk f ws) {iw : LinIns K × List K}
    (hm : iw ∈ f.instructions.zip ws) : iw.1 ∈ f.instructions ∧ iw.2.length = size iw.1 := by
  obtain ⟨ins, w⟩ := iw
  refine ⟨(List.of_mem_zip hm).1, ?_⟩
  unfold WeightsOk at h
  obtain ⟨i, hi, e⟩ := List.getElem_of_mem hm
  rw [List.getElem_zip] at e
  injection e with e1 e2
  have := congrArg (fun l => l[i]?) h
  simp only [List.length_zip] at hi
  simp only [List.getElem?_map] at this
  rw [List.getElem?_eq_getElem (by omega), List.getElem?_eq_getElem (by omega)] at this
  simp only [Option.map_some, Option.some.injEq] at this
  rw [e1, e2] at this
  exact this

/-- The path in rows: shape and agreement with `path`. -/
theorem path_spec {f : FLin K} (hf : Good f) {x : IArr K} (hx : Inv x) (hi : x.irreps = f.irrepsIn)
    {ws : List (List K)} (hw : WeightsOk f ws) {iw : LinIns K × List K} (hm : iw ∈ f.instructions.zip ws) :
    f.path x.chunks iw.1 iw.2 = .ok ((f.pathRows x.chunks iw).map List.flatten) ∧
      ∃ mo, f.irrepsOut[iw.1.iOut]? = some mo ∧ shapeOk mo (f.pathRows x.chunks iw) = true := by
  obtain ⟨hm1, hm2⟩ := hw.mem hm
  obtain ⟨mo, ho, hins⟩ := hf _ hm1
  obtain ⟨⟨iIn, iOut, ps, pw, sd⟩, w⟩ := iw
  simp only at *
  have ho' : f.irrepsOut.getD iOut ⟨0, ⟨0, .e⟩⟩ = mo := by simp [List.getD, ho]
  cases iIn with
  | none =>
    obtain ⟨h1, h2⟩ := hins
    have hwl : w.length = mo.mul := by
      rw [hm2]; simp [size, h2, MulIrrep.dim, h1, Irrep.dim]
    have hr : (rows mo.mul 1 (w.map (pw * ·))).flatten = w.map (pw * ·) := by
      rw [rows_flatten _ _ _ (by simp [hwl]), List.take_of_length_le (by simp [hwl])]
    refine ⟨?_, mo, ho, ?_⟩
    · simp only [path, pathRows, ho', Option.map_some, hr]
    · simp only [pathRows, ho', shapeOk, Bool.and_eq_true, beq_iff_eq, List.all_eq_true]
      refine ⟨rows_length _ _ _, ?_⟩
      have : mo.ir.dim = 1 := by rw [h1]; rfl
      rw [this]
      exact rows_row_length _ _ _ (by simp [hwl])
  | some i =>
    obtain ⟨mi, h1, h2, h3⟩ := hins
    have hi' : f.irrepsIn.getD i ⟨0, ⟨0, .e⟩⟩ = mi := by simp [List.getD, h1]
    have hlt : i < f.irrepsIn.length := (List.getElem?_eq_some_iff.mp h1).1
    have hz := zip_get hx (i := i) (by rw [hi]; exact hlt)
    have hsh := hx.pairs.1 _ (List.mem_of_getElem? hz)
    have hcl := chunks_length hx
    have hci : x.chunks[i]? = some (chunkAt x i) := by
      have := List.getElem?_zip_eq_some.mp hz
      exact this.2
    have hmi : x.irreps[i]'(by rw [hi]; exact hlt) = mi := by
      have e : x.irreps[i]? = some mi := by rw [hi]; exact h1
      exact Option.some.inj ((List.getElem?_eq_getElem (by rw [hi]; exact hlt)).symm.trans e)
    rw [hmi] at hsh
    have hcd : x.chunks.getD i none = chunkAt x i := by simp [List.getD, hci]
    simp only [path, pathRows, ho', hi', h1, h3, hci, hcd]
    generalize chunkAt x i = c at hsh
    cases c with
    | none => exact ⟨rfl, mo, ho, rfl⟩
    | some rs =>
      refine ⟨rfl, mo, ho, ?_⟩
      simp only [shapeOk, Bool.and_eq_true, beq_iff_eq, List.all_eq_true] at hsh
      obtain ⟨s1, s2⟩ := einsum_shape mo.mul mi.ir.dim (rows mi.mul mo.mul w) rs hsh.2
      simp only [Option.map_some, shapeOk, Bool.and_eq_true, beq_iff_eq, List.all_eq_true, List.length_map]
      refine ⟨s1, ?_⟩
      intro r hr
      obtain ⟨q, hq, rfl⟩ := List.mem_map.mp hr
      rw [List.length_map, s2 q hq, h2]

/-- The chunks of the output. -/
def outPairs (f : FLin K) (cs : List (Chunk K)) (ws : List (List K)) : List (MulIrrep × Chunk K) :=
  f.irrepsOut.zipIdx.map fun mo => (mo.1,
    sumChunks (((f.instructions.zip ws).filter fun iw => iw.1.iOut == mo.2).map (f.pathRows cs)))

theorem outPairs_shaped {f : FLin K} (hf : Good f) {x : IArr K} (hx : Inv x) (hi : x.irreps = f.irrepsIn)
    {ws : List (List K)} (hw : WeightsOk f ws) : Shaped (outPairs f x.chunks ws) := by
  intro p hp
  obtain ⟨⟨m, o⟩, hmo, rfl⟩ := List.mem_map.mp hp
  apply sumChunks_shape
  intro c hc
  obtain ⟨iw, hiw, rfl⟩ := List.mem_map.mp hc
  rw [List.mem_filter] at hiw
  obtain ⟨-, mo, h1, h2⟩ := path_spec hf hx hi hw hiw.1
  have : iw.1.iOut = o := by simpa using hiw.2
  rw [this, List.mk_mem_zipIdx_iff_getElem?.mp hmo] at h1
  cases h1; exact h2

theorem zip_filter_snd {γ δ ε : Type} (l : List γ) (k : List δ) (g : γ × δ → ε) (p : γ → Bool) :
    ((l.zip ((l.zip k).map g)).filter fun ip => p ip.1).map Prod.snd =
      ((l.zip k).filter fun ip => p ip.1).map g := by
  induction l generalizing k with
  | nil => simp
  | cons a l ih =>
    cases k with
    | nil => simp
    | cons b k =>
      simp only [List.zip_cons_cons, List.map_cons, List.filter_cons]
      split <;> simp [ih]

theorem callAux {f : FLin K} (hf : Good f) {x : IArr K} (hx : Inv x) (hi : x.irreps = f.irrepsIn)
    {ws : List (List K)} (hw : WeightsOk f ws) :
    ((f.instructions.zip ws).mapM (fun iw => f.path x.chunks iw.1 iw.2) >>= f.aggregate) =
      fromChunks ((outPairs f x.chunks ws).map Prod.fst) ((outPairs f x.chunks ws).map Prod.snd) := by
  rw [mapM_ok (h := fun iw => (f.pathRows x.chunks iw).map List.flatten) _
    (fun iw hm => (path_spec hf hx hi hw hm).1)]
  show f.aggregate _ = _
  unfold aggregate
  rw [mapM_ok (h := fun mo => sumChunks
    (((f.instructions.zip ws).filter fun iw => iw.1.iOut == mo.2).map (f.pathRows x.chunks)))]
  · show fromChunks f.irrepsOut _ = _
    simp only [outPairs, List.map_map]
    congr 1
    conv => lhs; rw [← List.zipIdx_map_fst 0 f.irrepsOut]
    apply List.map_congr_left; intros; rfl
  · rintro ⟨m, o⟩ hmo
    rw [zip_filter_snd f.instructions ws (fun iw => (f.pathRows x.chunks iw).map List.flatten) (fun i => i.iOut == o)]
    have := sumTensors_eq (m := m)
      (((f.instructions.zip ws).filter fun iw => iw.1.iOut == o).map (f.pathRows x.chunks)) ?_
    · rw [List.map_map] at this; exact this
    · intro c hc
      obtain ⟨iw, hiw, rfl⟩ := List.mem_map.mp hc
      rw [List.mem_filter] at hiw
      obtain ⟨-, mo, h1, h2⟩ := path_spec hf hx hi hw hiw.1
      have : iw.1.iOut = o := by simpa using hiw.2
      rw [this, List.mk_mem_zipIdx_iff_getElem?.mp hmo] at h1
      cases h1; exact h2

theorem outPairs_fst (f : FLin K) (cs : List (Chunk K)) (ws : List (List K)) :
    (outPairs f cs ws).map Prod.fst = f.irrepsOut := by
  conv => rhs; rw [← List.zipIdx_map_fst 0 f.irrepsOut]
  simp only [outPairs, List.map_map]
  apply List.map_congr_left; intros; rfl

/-- The call always returns on good instructions and weights. -/
theorem call_spec {f : FLin K} (hf : Good f) {x : IArr K} (hx : Inv x) (hs : expand x.irreps = expand f.irrepsIn)
    {ws : List (List K)} (hw : WeightsOk f ws) :
    ∃ xr y, x.rechunk f.irrepsIn = .ok xr ∧ Inv xr ∧ xr.irreps = f.irrepsIn ∧ xr.array = x.array ∧
      f.call ws x = .ok y ∧ Inv y ∧ y.irreps = f.irrepsOut ∧
      y.irreps.zip y.chunks = outPairs f xr.chunks ws ∧
      y.array = ((outPairs f xr.chunks ws).map fun p => flatChunk p.1 p.2).flatten := by
  obtain ⟨xr, h1, h2, h3, h4⟩ := rechunk_spec hx hs
  obtain ⟨y, y1, y2, y3, y4, y5, y6, y7, y8⟩ := fromChunks_pairs _ (outPairs_shaped hf h2 h3 hw)
  refine ⟨xr, y, h1, h2, h3, h4, ?_, y2, by rw [y3, outPairs_fst], ?_, y5⟩
  · unfold call
    rw [h1]
    exact (callAux hf h2 h3 hw).trans y1
  · rw [y3, y7]
    induction outPairs f xr.chunks ws with
    | nil => rfl
    | cons a l ih => simp [ih]

/-! ### Equivariance -/

/-- A linear action on rows. -/
structure LinAct (D : Irrep → List K → List K) : Prop extends Act D where
  add : ∀ ir a b, a.length = ir.dim → b.length = ir.dim →
    D ir (List.zipWith (· + ·) a b) = List.zipWith (· + ·) (D ir a) (D ir b)
  smul : ∀ ir c a, a.length = ir.dim → D ir (a.map (c * ·)) = (D ir a).map (c * ·)

variable {D : Irrep → List K → List K}

theorem linComb_D (hD : LinAct D) (ir : Irrep) (cs : List K) (rs : List (List K)) (h : ∀ r ∈ rs, r.length = ir.dim) :
    D ir (linComb ir.dim cs rs) = linComb ir.dim cs (rs.map (D ir)) := by
  induction cs generalizing rs with
  | nil => simp only [linComb]; exact hD.zero ir
  | cons c cs ih =>
    cases rs with
    | nil => simp only [linComb, List.map_nil]; exact hD.zero ir
    | cons r rs =>
      have h' : ∀ r ∈ rs, r.length = ir.dim := fun r hr => h r (by simp [hr])
      simp only [linComb, List.map_cons]
      rw [hD.add _ _ _ (by simp [h r]) (linComb_length _ _ _ h'), hD.smul _ _ _ (h r (by simp)), ih rs h']

theorem einsum_D (hD : LinAct D) (ir : Irrep) (n : Nat) (w x : List (List K)) (h : ∀ r ∈ x, r.length = ir.dim) :
    (einsumUW n ir.dim w x).map (D ir) = einsumUW n ir.dim w (x.map (D ir)) := by
  unfold einsumUW
  rw [List.map_map]
  apply List.map_congr_left
  intro j _
  exact linComb_D hD ir _ _ h

theorem addRows_D (hD : LinAct D) {m : MulIrrep} {x y : List (List K)} (hx : shapeOk m (some x) = true)
    (hy : shapeOk m (some y) = true) :
    (addRows x y).map (D m.ir) = addRows (x.map (D m.ir)) (y.map (D m.ir)) := by
  simp only [shapeOk, Bool.and_eq_true, beq_iff_eq, List.all_eq_true] at hx hy
  apply zipWith_map_congr
  intro p hp
  exact hD.add _ _ _ (hx.2 _ (List.of_mem_zip hp).1) (hy.2 _ (List.of_mem_zip hp).2)

theorem sumChunks_D (hD : LinAct D) {m : MulIrrep} {cs : List (Chunk K)} (h : ∀ c ∈ cs, shapeOk m c = true) :
    actRows D (m, sumChunks cs) = sumChunks (cs.map fun c => actRows D (m, c)) := by
  have e : (cs.map fun c => actRows D (m, c)).filterMap id = (cs.filterMap id).map (List.map (D m.ir)) := by
    clear h
    induction cs with
    | nil => rfl
    | cons c cs ih => cases c <;> simp_all [actRows]
  have h' : ∀ x ∈ cs.filterMap id, shapeOk m (some x) = true := by
    intro x hx
    obtain ⟨c, hc, e⟩ := List.mem_filterMap.mp hx
    simp only [id] at e; subst e; exact h _ hc
  unfold sumChunks
  rw [e]
  generalize cs.filterMap id = l at h'
  cases l with
  | nil => rfl
  | cons x l =>
    simp only [actRows, Option.map_some, List.map_cons]
    congr 1
    have h2 : ∀ y ∈ l, shapeOk m (some y) = true := fun y hy => h' y (by simp [hy])
    have h1 := h' x (by simp)
    clear h' h e
    induction l generalizing x with
    | nil => rfl
    | cons y l ih =>
      simp only [List.foldl_cons, List.map_cons]
      rw [ih _ (fun z hz => h2 z (by simp [hz])) (addRows_shape h1 (h2 y (by simp))), addRows_D hD h1 (h2 y (by simp))]

/-- The action leaves `0e` alone. -/
def FixesScalars (D : Irrep → List K → List K) : Prop := ∀ a : K, D ⟨0, .e⟩ [a] = [a]

theorem pathRows_D (hD : LinAct D) {f : FLin K} (hf : Good f)
    (hb : FixesScalars D ∨ ∀ ins ∈ f.instructions, ins.iIn ≠ none)
    {x x' : IArr K} (ht : Tr D x x') (hi : x.irreps = f.irrepsIn)
    {ws : List (List K)} (hw : WeightsOk f ws) {iw : LinIns K × List K} (hm : iw ∈ f.instructions.zip ws)
    {mo : MulIrrep} (ho : f.irrepsOut[iw.1.iOut]? = some mo) :
    f.pathRows x'.chunks iw = actRows D (mo, f.pathRows x.chunks iw) := by
  obtain ⟨hm1, hm2⟩ := hw.mem hm
  obtain ⟨mo', ho2, hins⟩ := hf _ hm1
  rw [ho] at ho2; cases ho2
  obtain ⟨⟨iIn, iOut, ps, pw, sd⟩, w⟩ := iw
  simp only at *
  have ho' : f.irrepsOut.getD iOut ⟨0, ⟨0, .e⟩⟩ = mo := by simp [List.getD, ho]
  cases iIn with
  | none =>
    obtain ⟨h1, h2⟩ := hins
    have hwl : w.length = mo.mul := by
      rw [hm2]; simp [size, h2, MulIrrep.dim, h1, Irrep.dim]
    rcases hb with hb | hb
    · simp only [pathRows, ho', actRows, Option.map_some]
      congr 1
      have hr := rows_row_length mo.mul 1 (w.map (pw * ·)) (by simp [hwl])
      symm
      conv => rhs; rw [← List.map_id (rows _ _ _)]
      apply List.map_congr_left
      intro r hr'
      obtain ⟨a, rfl⟩ := List.length_eq_one_iff.mp (hr r hr')
      rw [h1]; exact hb a
    · exact absurd rfl (hb _ hm1)
  | some i =>
    obtain ⟨mi, h1, h2, h3⟩ := hins
    have hi' : f.irrepsIn.getD i ⟨0, ⟨0, .e⟩⟩ = mi := by simp [List.getD, h1]
    have hlt : i < x.irreps.length := by rw [hi]; exact (List.getElem?_eq_some_iff.mp h1).1
    have hz := zip_get ht.inv hlt
    have hsh := ht.inv.pairs.1 _ (List.mem_of_getElem? hz)
    have hci := (List.getElem?_zip_eq_some.mp hz).2
    have hci' : x'.chunks[i]? = some (actRows D (x.irreps[i], chunkAt x i)) := by
      rw [ht.chunks, List.getElem?_map, hz]; rfl
    have hmi : x.irreps[i] = mi := by
      have e : x.irreps[i]? = some mi := by rw [hi]; exact h1
      exact Option.some.inj ((List.getElem?_eq_getElem hlt).symm.trans e)
    rw [hmi] at hsh hci'
    have hcd : x.chunks.getD i none = chunkAt x i := by simp [List.getD, hci]
    have hcd' : x'.chunks.getD i none = actRows D (mi, chunkAt x i) := by simp [List.getD, hci']
    simp only [pathRows, ho', hi', hcd, hcd']
    generalize chunkAt x i = c at hsh
    cases c with
    | none => rfl
    | some rs =>
      simp only [shapeOk, Bool.and_eq_true, beq_iff_eq, List.all_eq_true] at hsh
      obtain ⟨s1, s2⟩ := einsum_shape mo.mul mi.ir.dim (rows mi.mul mo.mul w) rs hsh.2
      simp only [actRows, Option.map_some, ← h2]
      rw [← einsum_D hD mi.ir _ _ _ hsh.2, List.map_map, List.map_map]
      congr 1
      apply List.map_congr_left
      intro r hr
      exact (hD.smul _ _ _ (s2 r hr)).symm

theorem rechunk_irreps {x y : IArr K} (hx : Inv x) {new : Irreps} (h : x.rechunk new = .ok y) :
    y.irreps = new ∧ y.array = x.array ∧ Inv y ∧ expand x.irreps = expand new := by
  by_cases hs : expand x.irreps = expand new
  · obtain ⟨z, z1, z2, z3, z4⟩ := rechunk_spec hx hs
    rw [h] at z1; cases z1; exact ⟨z3, z4, z2, hs⟩
  · unfold rechunk at h
    rw [if_pos (by simpa using fun e => hs ((Irreps.simplify_eq_iff _ _).mp e))] at h
    cases h

theorem tr_call (hD : LinAct D) {f : FLin K} (hf : Good f)
    (hb : FixesScalars D ∨ ∀ ins ∈ f.instructions, ins.iIn ≠ none)
    {ws : List (List K)} (hw : WeightsOk f ws) {x x' y : IArr K} (ht : Tr D x x')
    (hy : f.call ws x = .ok y) : ∃ y', f.call ws x' = .ok y' ∧ Tr D y y' := by
  have hs : ∃ xr, x.rechunk f.irrepsIn = .ok xr := by
    unfold call at hy
    cases h : x.rechunk f.irrepsIn with
    | error e => rw [h] at hy; cases hy
    | ok xr => exact ⟨xr, rfl⟩
  obtain ⟨xr, hr⟩ := hs
  obtain ⟨xr', hr', ht'⟩ := tr_rechunk hD.toAct ht hr
  have hi : xr.irreps = f.irrepsIn := (rechunk_irreps ht.inv hr).1
  have hi' : xr'.irreps = f.irrepsIn := by rw [ht'.irreps, hi]
  have e1 : f.call ws x = fromChunks ((outPairs f xr.chunks ws).map Prod.fst) ((outPairs f xr.chunks ws).map Prod.snd) := by
    unfold call; rw [hr]; exact callAux hf ht'.inv hi hw
  have e2 : f.call ws x' = fromChunks ((outPairs f xr'.chunks ws).map Prod.fst) ((outPairs f xr'.chunks ws).map Prod.snd) := by
    unfold call; rw [hr']; exact callAux hf ht'.inv' hi' hw
  rw [e1] at hy
  rw [e2, outPairs_fst]
  rw [outPairs_fst] at hy
  refine tr_select hD.toAct (outPairs_shaped hf ht'.inv hi hw) (outPairs_fst ..) rfl ?_ hy
  rw [List.map_map]
  simp only [outPairs, List.map_map]
  apply List.map_congr_left
  rintro ⟨m, o⟩ hmo
  simp only [Function.comp, T]
  rw [sumChunks_D hD]
  · rw [List.map_map]
    congr 1
    apply List.map_congr_left
    intro iw hiw
    rw [List.mem_filter] at hiw
    have : iw.1.iOut = o := by simpa using hiw.2
    exact (pathRows_D hD hf hb ht' hi hw hiw.1 (by rw [this]; exact List.mk_mem_zipIdx_iff_getElem?.mp hmo)).symm
  · intro c hc
    obtain ⟨iw, hiw, rfl⟩ := List.mem_map.mp hc
    rw [List.mem_filter] at hiw
    obtain ⟨-, mo, h1, h2⟩ := path_spec hf ht'.inv hi hw hiw.1
    have : iw.1.iOut = o := by simpa using hiw.2
    rw [this, List.mk_mem_zipIdx_iff_getElem?.mp hmo] at h1
    cases h1; exact h2

end FLin
end E3nn

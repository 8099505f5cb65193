import Verif.Model.IrrepsOnly
import Verif.Lemmas.TensorProduct
import Verif.Lemmas.Activation
import Verif.Lemmas.IArrSlice
import Verif.Props.C45

/-! # The irreps of a result depend on the irreps of the arguments only -/

namespace E3nn

open IArr TP

variable {K K' : Type} [CommRing K] [CommRing K']

theorem zeros_tree {K : Type} [Zero K] (irreps : Irreps) : ∃ z w : IArr K, zeros irreps = .ok z ∧ throughPytree z = .ok w ∧
    Inv w ∧ w.irreps = irreps ∧ ∀ c ∈ w.chunks, c ≠ none := by
  obtain ⟨z, z1, z2, z3, z4, -⟩ : ∃ y : IArr K, zeros irreps = .ok y ∧ y.Coherent ∧ y.irreps = irreps ∧ y.array = List.replicate irreps.dim 0 ∧ True := by
    have hz : ∀ ms : Irreps, FlagsOk ms (List.replicate ms.dim (0 : K)) (List.replicate ms.length true) := by
      intro ms
      induction ms with
      | nil => simp [FlagsOk, Irreps.dim]
      | cons m ms ih =>
        rw [Irreps.dim_cons]
        simp only [List.length_cons, List.replicate_succ, FlagsOk]
        refine ⟨by simp, fun _ v hv => ?_, ?_⟩
        · exact (List.mem_replicate.mp (List.mem_of_mem_take hv)).2
        · simpa [List.drop_replicate] using ih
    exact ⟨_, make_nocache (hz irreps), (inv_nocache (hz irreps)).coherent, rfl, rfl, trivial⟩
  obtain ⟨w, w1, w2, w3, w4, w5, w6⟩ := (C12_from_array z.irreps z.array).1 z2.array_length
  exact ⟨z, w, z1, w1, w2.inv, by rw [w3, z3], w6⟩

theorem zip_fst {x : IArr K} (hx : Inv x) : (x.irreps.zip x.chunks).map Prod.fst = x.irreps := hx.pairs.2.1

theorem triples_fst (filter : Option (List Irrep)) (P1 P2 : List (MulIrrep × Chunk K)) :
    (triples filter P1 P2).map (fun t => (t.1.1, t.2.1.1, t.2.2)) =
      (P1.map Prod.fst).flatMap fun m1 => (P2.map Prod.fst).flatMap fun m2 => (irsOut filter m1.ir m2.ir).map fun ir => (m1, m2, ir) := by
  simp only [triples, List.map_flatMap, List.flatMap_map, List.map_map]
  rfl

theorem tpEntries_fst (ctx : TPCtx K) (n : IrNorm) (filter : Option (List Irrep)) (P1 P2 : List (MulIrrep × Chunk K)) :
    (tpEntries ctx n filter P1 P2).map Prod.fst =
      (P1.map Prod.fst).flatMap fun m1 => (P2.map Prod.fst).flatMap fun m2 =>
        (irsOut filter m1.ir m2.ir).map fun ir => (⟨m1.mul * m2.mul, ir⟩ : MulIrrep) := by
  simp only [tpEntries, triples, List.map_flatMap, List.flatMap_map, List.map_map]
  rfl

theorem squareStep_fst (ctx : TPCtx K) (ctx' : TPCtx K') (n : IrNorm) (ni : Bool) {q1 q2 : (MulIrrep × Chunk K) × Nat} {r1 r2 : (MulIrrep × Chunk K') × Nat}
    (h1 : q1.1.1 = r1.1.1) (h1' : q1.2 = r1.2) (h2 : q2.1.1 = r2.1.1) (h2' : q2.2 = r2.2) (ir : Irrep) :
    (squareStep ctx n ni q1 q2 ir).map Prod.fst = (squareStep ctx' n ni r1 r2 ir).map Prod.fst := by
  unfold squareStep
  simp only [h1, h1', h2, h2']
  split
  · rfl
  · split
    · simp only [List.map_append]
      congr 1
      · split <;> rfl
      · split <;> rfl
    · rfl

theorem squareEntries_fst (ctx : TPCtx K) (ctx' : TPCtx K') (n : IrNorm) (ni : Bool) {P : List (MulIrrep × Chunk K)} {Q : List (MulIrrep × Chunk K')}
    (h : P.map Prod.fst = Q.map Prod.fst) :
    (squareEntries ctx n ni P).map Prod.fst = (squareEntries ctx' n ni Q).map Prod.fst := by
  have hlen : P.length = Q.length := by simpa using congrArg List.length h
  have key : ∀ {β : Type} (f : (MulIrrep × Chunk K) × Nat → List β) (g : (MulIrrep × Chunk K') × Nat → List β),
      (∀ a b, a.1.1 = b.1.1 → a.2 = b.2 → f a = g b) → P.zipIdx.flatMap f = Q.zipIdx.flatMap g := by
    intro β f g hfg
    rw [List.flatMap_def, List.flatMap_def]
    congr 1
    apply List.ext_getElem
    · simp [hlen]
    · intro i hi hj
      simp only [List.getElem_map, List.getElem_zipIdx]
      apply hfg
      · have hi' : i < P.length := by simpa using hi
        have := congrArg (fun l => l[i]?) h
        simp only [List.getElem?_map] at this
        rw [List.getElem?_eq_getElem hi', List.getElem?_eq_getElem (hlen ▸ hi')] at this
        simpa using this
      · rfl
  simp only [squareEntries, List.map_flatMap]
  apply key
  intro a b hab hab'
  apply key
  intro c d hcd hcd'
  rw [hab, hcd]
  congr 1
  funext ir
  exact squareStep_fst ctx ctx' n ni hab hab' hcd hcd' ir

theorem elEntries_fst (ctx : TPCtx K) (n : IrNorm) (filter : Option (List Irrep)) (P1 P2 : List (MulIrrep × Chunk K)) :
    (elEntries ctx n filter P1 P2).map Prod.fst =
      ((P1.map Prod.fst).zip (P2.map Prod.fst)).flatMap fun q => (irsOut filter q.1.ir q.2.ir).map fun ir => (⟨q.1.mul, ir⟩ : MulIrrep) := by
  rw [List.zip_map, List.flatMap_map]
  simp only [elEntries, List.map_flatMap, List.map_map]
  rfl

theorem prepare_irreps (rg : Bool) {x z : IArr K} {x' z' : IArr K'} (hx : Inv x) (hx' : Inv x') (h : x.irreps = x'.irreps)
    (hz : prepare rg x = .ok z) (hz' : prepare rg x' = .ok z') : z.irreps = z'.irreps := by
  cases rg with
  | false =>
    cases Except.ok.inj hz; cases Except.ok.inj hz'; exact h
  | true =>
    simp only [prepare, if_true] at hz hz'
    obtain ⟨y, y1, -, -, -, -, y2⟩ := C17_regroup x hx.coherent
    obtain ⟨y', y1', -, -, -, -, y2'⟩ := C17_regroup x' hx'.coherent
    rw [y1] at hz; rw [y1'] at hz'
    cases Except.ok.inj hz; cases Except.ok.inj hz'
    rw [h, y2'] at y2
    exact (Except.ok.inj y2).symm

theorem finish_irreps (rg : Bool) {ps : List (MulIrrep × Chunk K)} {qs : List (MulIrrep × Chunk K')} (hp : Shaped ps) (hq : Shaped qs)
    (h : ps.map Prod.fst = qs.map Prod.fst) {y : IArr K} {v : IArr K'} (hy : finish rg ps = .ok y) (hv : finish rg qs = .ok v) :
    y.irreps = v.irreps := by
  obtain ⟨a, a1, -, -, -, -, a2⟩ := finish_spec rg hp
  obtain ⟨b, b1, -, -, -, -, b2⟩ := finish_spec rg hq
  rw [a1] at hy; rw [b1] at hv
  cases Except.ok.inj hy; cases Except.ok.inj hv
  cases rg with
  | false => simp only [Bool.false_eq_true, if_false] at a2 b2; rw [a2, b2, h]
  | true =>
    simp only [if_true] at a2 b2
    rw [h, b2] at a2
    exact (Except.ok.inj a2).symm

theorem tp_blind {ctx : TPCtx K} {ctx' : TPCtx K'} (hc : CgOk ctx) (hc' : CgOk ctx') {n : IrNorm} (hn : n ≠ .other) (filter : Option (List Irrep))
    (rg : Bool) {x1 x2 : IArr K} {u1 u2 : IArr K'} (h1 : Inv x1) (h2 : Inv x2) (k1 : Inv u1) (k2 : Inv u2)
    (e1 : x1.irreps = u1.irreps) (e2 : x2.irreps = u2.irreps) :
    ∃ y v, tensorProduct ctx n filter rg x1 x2 = .ok y ∧ tensorProduct ctx' n filter rg u1 u2 = .ok v ∧ Inv y ∧ Inv v ∧ y.irreps = v.irreps := by
  obtain ⟨z1, z2, y, a1, a2, a3, a4, a5, a6, a7, -⟩ := tensorProduct_spec hc hn filter rg h1 h2
  obtain ⟨w1, w2, v, b1, b2, b3, b4, b5, b6, b7, -⟩ := tensorProduct_spec hc' hn filter rg k1 k2
  refine ⟨y, v, a6, b6, a7, b7, ?_⟩
  refine finish_irreps rg (tpEntries_shaped hc n filter a3.pairs.1 a4.pairs.1) (tpEntries_shaped hc' n filter b3.pairs.1 b4.pairs.1) ?_ a5 b5
  rw [tpEntries_fst, tpEntries_fst, zip_fst a3, zip_fst a4, zip_fst b3, zip_fst b4, prepare_irreps rg h1 k1 e1 a1 b1,
    prepare_irreps rg h2 k2 e2 a2 b2]

theorem square_blind {ctx : TPCtx K} {ctx' : TPCtx K'} (hc : CgOk ctx) (hc' : CgOk ctx') {n : IrNorm} (hn : n ≠ .other) (ni rg : Bool)
    {x : IArr K} {u : IArr K'} (h1 : Inv x) (k1 : Inv u) (e1 : x.irreps = u.irreps) :
    ∃ y v, tensorSquare ctx n ni rg x = .ok y ∧ tensorSquare ctx' n ni rg u = .ok v ∧ Inv y ∧ Inv v ∧ y.irreps = v.irreps := by
  obtain ⟨z, y, a1, a3, a5, a6, a7, -⟩ := tensorSquare_spec hc hn ni rg h1
  obtain ⟨w, v, b1, b3, b5, b6, b7, -⟩ := tensorSquare_spec hc' hn ni rg k1
  refine ⟨y, v, a6, b6, a7, b7, ?_⟩
  refine finish_irreps rg (squareEntries_shaped hc n ni a3.pairs.1) (squareEntries_shaped hc' n ni b3.pairs.1) ?_ a5 b5
  apply squareEntries_fst
  rw [zip_fst a3, zip_fst b3, prepare_irreps rg h1 k1 e1 a1 b1]

theorem el_blind {ctx : TPCtx K} {ctx' : TPCtx K'} (hc : CgOk ctx) (hc' : CgOk ctx') {n : IrNorm} (hn : n ≠ .other) (filter : Option (List Irrep))
    {x1 x2 y : IArr K} {u1 u2 : IArr K'} (h1 : Inv x1) (h2 : Inv x2) (k1 : Inv u1) (k2 : Inv u2)
    (e1 : x1.irreps = u1.irreps) (e2 : x2.irreps = u2.irreps) (hy : elementwise ctx n filter x1 x2 = .ok y) :
    ∃ v, elementwise ctx' n filter u1 u2 = .ok v ∧ Inv y ∧ Inv v ∧ y.irreps = v.irreps := by
  obtain ⟨hnum, r, hr⟩ := elementwise_align hy
  obtain ⟨u, v, z, -, a1, a2, a3, a4, -, -, a5, a6, a7, -⟩ := elementwise_spec hc hn filter h1 h2 hnum hr
  obtain ⟨u', v', z', -, b1, b2, b3, b4, -, -, b5, b6, b7, -⟩ := elementwise_spec hc' hn filter k1 k2 (by rw [← e1, ← e2]; exact hnum) (by rw [← e1, ← e2]; exact hr)
  rw [a5] at hy
  cases Except.ok.inj hy
  refine ⟨z', b5, a6, b6, ?_⟩
  rw [← zip_fst a6, ← zip_fst b6, a7, b7, elEntries_fst, elEntries_fst, zip_fst a1, zip_fst a2, zip_fst b1, zip_fst b2, a3, a4, b3, b4]

end E3nn

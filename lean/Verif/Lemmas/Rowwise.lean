import Verif.Lemmas.Transform

/-! # Operations that act on every row of every chunk -/

namespace E3nn
namespace IArr

variable {α γ : Type} [Zero α]

/-- One entry per irrep from one entry per term. -/
def perIrrep (ms : Irreps) (gs : List γ) : List γ := (ms.zip gs).flatMap fun q => List.replicate q.1.mul q.2

/-- The row operation `G g` on the chunks. -/
def TG (G : γ → Irrep → List α → List α) (q : (MulIrrep × Chunk α) × γ) : MulIrrep × Chunk α := T (G q.2) q.1

theorem zipWith_replicate {β δ : Type} (f : β → γ → δ) (l : List β) (g : γ) : List.zipWith f l (List.replicate l.length g) = l.map fun b => f b g := by
  induction l with
  | nil => rfl
  | cons a l ih => simp [List.replicate_succ, ih]

theorem blocks_TG {G : γ → Irrep → List α → List α} (hG : ∀ g, Act (G g)) (ps : List (MulIrrep × Chunk α)) (gs : List γ)
    (hs : Shaped ps) (hl : ps.length = gs.length) :
    ((ps.zip gs).map (TG G)).flatMap blk =
      List.zipWith (fun b g => (b.1, G g b.1 b.2)) (ps.flatMap blk) (perIrrep (ps.map Prod.fst) gs) := by
  induction ps generalizing gs with
  | nil => simp
  | cons p ps ih =>
    cases gs with
    | nil => simp at hl
    | cons g gs =>
      simp only [List.zip_cons_cons, List.map_cons, List.flatMap_cons, perIrrep]
      rw [List.zipWith_append (by simp [blk_length])]
      congr 1
      · rw [← blk_length p, zipWith_replicate]
        exact blk_T (hG g) (hs p (by simp))
      · exact ih gs (fun q hq => hs q (by simp [hq])) (by simpa using hl)

theorem rowwise_spec {G : γ → Irrep → List α → List α} (hG : ∀ g, Act (G g)) {x : IArr α} (hx : Inv x) (gs : List γ)
    (hl : x.irreps.length = gs.length) :
    ∃ y, fromChunks x.irreps (((x.irreps.zip x.chunks).zip gs).map fun q => actRows (G q.2) q.1) = .ok y ∧ Inv y ∧
      y.irreps.zip y.chunks = ((x.irreps.zip x.chunks).zip gs).map (TG G) ∧ y.irreps = x.irreps ∧ y.zeroFlags = x.zeroFlags ∧
      y.blocks = List.zipWith (fun b g => (b.1, G g b.1 b.2)) x.blocks (perIrrep x.irreps gs) := by
  have hp := hx.pairs
  have hlen : (x.irreps.zip x.chunks).length = gs.length := by
    rw [← hl, ← congrArg List.length hp.2.1, List.length_map]
  set ps := ((x.irreps.zip x.chunks).zip gs).map (TG G) with hps
  have hs : Shaped ps := by
    intro q hq
    obtain ⟨⟨p, g⟩, h1, rfl⟩ := List.mem_map.mp hq
    exact T_shaped (hG g) (ps := [p]) (by intro r hr; rw [List.mem_singleton.mp hr]; exact hp.1 _ (List.of_mem_zip h1).1) _ (by simp [TG])
  have e0 : (x.irreps.zip x.chunks) = ((x.irreps.zip x.chunks).zip gs).map Prod.fst := by rw [List.map_fst_zip (by omega)]
  have e1 : ps.map Prod.fst = x.irreps := by
    rw [hps, List.map_map]
    conv_rhs => rw [← hp.2.1, e0]
    rw [List.map_map]; rfl
  have e2 : ps.map Prod.snd = ((x.irreps.zip x.chunks).zip gs).map fun q => actRows (G q.2) q.1 := by
    rw [hps, List.map_map]; rfl
  have e3 : ps.map (fun p => p.2.isNone) = x.zeroFlags := by
    conv_rhs => rw [← hp.2.2.2.2.1, e0]
    rw [hps, List.map_map, List.map_map]
    apply List.map_congr_left
    rintro ⟨⟨m, c⟩, g⟩ _
    cases c <;> rfl
  obtain ⟨y, h1, h2, h3, h4, h5, h6, h7, h8⟩ := fromChunks_pairs ps hs
  have hz : y.irreps.zip y.chunks = ps := by rw [h3, h7, List.zip_map']; simp
  rw [e1, e2] at h1
  refine ⟨y, h1, h2, hz, by rw [h3, e1], by rw [h6, e3], ?_⟩
  rw [h2.blocks_pairs, hz, hps, blocks_TG hG _ gs hp.1 hlen, hx.blocks_pairs, hp.2.1]

/-- Row operations that commute with the action give arrays that correspond. -/
theorem tr_rowwise {G : γ → Irrep → List α → List α} (hG : ∀ g, Act (G g)) {D : Irrep → List α → List α} {x x' : IArr α} (h : Tr D x x') (gs : List γ)
    (hl : x.irreps.length = gs.length) (hc : ∀ g ∈ gs, ∀ ir r, r.length = ir.dim → G g ir (D ir r) = D ir (G g ir r)) :
    ∃ y y', fromChunks x.irreps (((x.irreps.zip x.chunks).zip gs).map fun q => actRows (G q.2) q.1) = .ok y ∧
      fromChunks x'.irreps (((x'.irreps.zip x'.chunks).zip gs).map fun q => actRows (G q.2) q.1) = .ok y' ∧ Tr D y y' := by
  obtain ⟨y, h1, h2, h3, -⟩ := rowwise_spec hG h.inv gs hl
  obtain ⟨y', k1, k2, k3, -⟩ := rowwise_spec hG h.inv' gs (by rw [h.irreps]; exact hl)
  refine ⟨y, y', h1, k1, h2, k2, ?_⟩
  rw [k3, h3, h.pairs, List.zip_map_left, List.map_map, List.map_map]
  apply List.map_congr_left
  rintro ⟨⟨m, c⟩, g⟩ hq
  have hs := h.inv.pairs.1 _ (List.of_mem_zip hq).1
  have hg := hc g (List.of_mem_zip hq).2
  cases c with
  | none => rfl
  | some rows =>
    simp only [shapeOk, Bool.and_eq_true, beq_iff_eq, List.all_eq_true] at hs
    simp only [Function.comp, TG, T, actRows, Prod.map, id, Option.map_some, List.map_map, Prod.mk.injEq, true_and]
    congr 1
    apply List.map_congr_left
    intro r hr
    exact hg m.ir r (hs.2 r hr)

end IArr
end E3nn

import Verif.Lemmas.Transform
import Verif.Lemmas.TensorProduct

/-! # Arrays obtained by mapping the rows of every term -/

namespace E3nn
namespace IArr

variable {α β : Type} [Zero α] [Zero β]

theorem fromChunks_of_pairs (ps : List (MulIrrep × Chunk β)) (hs : Shaped ps) {ms : Irreps} {cs : List (Chunk β)}
    (h1 : ms = ps.map Prod.fst) (h2 : cs = ps.map Prod.snd) :
    ∃ y, fromChunks ms cs = .ok y ∧ Inv y ∧ y.irreps = ms ∧ y.irreps.zip y.chunks = ps ∧ y.zeroFlags = ps.map (fun p => p.2.isNone) ∧
      y.blocks = ps.flatMap blk := by
  obtain ⟨y, e1, e2, e3, -, -, e4, e5, -⟩ := fromChunks_pairs ps hs
  have hz : y.irreps.zip y.chunks = ps := by rw [e3, e5, List.zip_map']; simp
  subst h1 h2
  exact ⟨y, e1, e2, e3, hz, e4, by rw [e2.blocks_pairs, hz]⟩

/-- The rows of a term, mapped. -/
def MR (T : Irrep → Irrep) (F : Irrep → List α → List β) (p : MulIrrep × Chunk α) : MulIrrep × Chunk β :=
  (⟨p.1.mul, T p.1.ir⟩, p.2.map fun rows => rows.map (F p.1.ir))

theorem blk_MR {T : Irrep → Irrep} {F : Irrep → List α → List β} (hl : ∀ ir r, r.length = ir.dim → (F ir r).length = (T ir).dim)
    (h0 : ∀ ir, F ir (List.replicate ir.dim 0) = List.replicate (T ir).dim 0) {p : MulIrrep × Chunk α} (hp : shapeOk p.1 p.2 = true) :
    shapeOk (MR T F p).1 (MR T F p).2 = true ∧ blk (MR T F p) = (blk p).map fun b => (T b.1, F b.1 b.2) := by
  obtain ⟨m, c⟩ := p
  cases c with
  | none =>
    refine ⟨rfl, ?_⟩
    simp only [MR, Option.map_none]
    rw [blk_none, blk_none, List.map_replicate, h0]
  | some c =>
    have hs : shapeOk (MR T F (m, some c)).1 (MR T F (m, some c)).2 = true := by
      simp only [MR, Option.map_some, shapeOk, Bool.and_eq_true, beq_iff_eq, List.all_eq_true, List.length_map, List.mem_map] at hp ⊢
      refine ⟨hp.1, ?_⟩
      rintro r ⟨r', hr', rfl⟩
      exact hl _ _ (hp.2 r' hr')
    refine ⟨hs, ?_⟩
    rw [blk_some hp]
    simp only [MR, Option.map_some] at hs ⊢
    rw [blk_some hs, List.map_map, List.map_map]
    rfl

theorem mapRows_spec {T : Irrep → Irrep} {F : Irrep → List α → List β} (hl : ∀ ir r, r.length = ir.dim → (F ir r).length = (T ir).dim)
    (h0 : ∀ ir, F ir (List.replicate ir.dim 0) = List.replicate (T ir).dim 0) {x : IArr α} (hx : Inv x) :
    ∃ y, fromChunks (x.irreps.map fun m => ⟨m.mul, T m.ir⟩) ((x.irreps.zip x.chunks).map fun p => p.2.map fun rows => rows.map (F p.1.ir)) = .ok y ∧
      Inv y ∧ y.irreps = (x.irreps.map fun m => ⟨m.mul, T m.ir⟩) ∧ y.irreps.zip y.chunks = (x.irreps.zip x.chunks).map (MR T F) ∧
      y.zeroFlags = x.zeroFlags ∧ y.blocks = x.blocks.map fun b => (T b.1, F b.1 b.2) := by
  have hp := hx.pairs
  obtain ⟨y, e1, e2, e3, e4, e5, e6⟩ := fromChunks_of_pairs ((x.irreps.zip x.chunks).map (MR T F))
    (by intro q hq; obtain ⟨p, h, rfl⟩ := List.mem_map.mp hq; exact (blk_MR hl h0 (hp.1 p h)).1)
    (ms := x.irreps.map fun m => ⟨m.mul, T m.ir⟩) (cs := (x.irreps.zip x.chunks).map fun p => p.2.map fun rows => rows.map (F p.1.ir))
    (by conv_lhs => rw [← hp.2.1]
        rw [List.map_map, List.map_map]; rfl)
    (by rw [List.map_map]; rfl)
  refine ⟨y, e1, e2, e3, e4, ?_, ?_⟩
  · rw [e5, ← hp.2.2.2.2.1, List.map_map]
    apply List.map_congr_left
    rintro ⟨m, c⟩ _
    cases c <;> rfl
  · rw [e6, hx.blocks_pairs, List.flatMap_map, List.map_flatMap]
    apply List.flatMap_congr
    intro p hpm
    exact (blk_MR hl h0 (hp.1 p hpm)).2

/-- The rows of two terms, combined. -/
def ZC (F : List α → List α → List β) : Chunk α → Chunk α → Chunk β
  | some x, some y => some (List.zipWith F x y)
  | _, _ => none

def ZR (T : Irrep → Irrep → Irrep) (F : List α → List α → List β) (q : (MulIrrep × Chunk α) × (MulIrrep × Chunk α)) : MulIrrep × Chunk β :=
  (⟨q.1.1.mul, T q.1.1.ir q.2.1.ir⟩, ZC F q.1.2 q.2.2)

theorem zipWith_replicate_left {γ δ ε : Type} (f : γ → δ → ε) (a : γ) (l : List δ) : List.zipWith f (List.replicate l.length a) l = l.map (f a) := by
  induction l with
  | nil => rfl
  | cons b l ih => simp [List.replicate_succ, ih]

theorem zipWith_replicate_right {γ δ ε : Type} (f : γ → δ → ε) (b : δ) (l : List γ) : List.zipWith f l (List.replicate l.length b) = l.map fun a => f a b := by
  induction l with
  | nil => rfl
  | cons a l ih => simp [List.replicate_succ, ih]

theorem blk_dim (p : MulIrrep × Chunk α) (hp : shapeOk p.1 p.2 = true) : ∀ b ∈ blk p, b.1 = p.1.ir ∧ b.2.length = p.1.ir.dim := by
  obtain ⟨m, c⟩ := p
  cases c with
  | none => rw [blk_none]; intro b hb; rw [(List.mem_replicate.mp hb).2]; simp
  | some c =>
    rw [blk_some hp]
    simp only [shapeOk, Bool.and_eq_true, beq_iff_eq, List.all_eq_true] at hp
    intro b hb
    obtain ⟨r, hr, rfl⟩ := List.mem_map.mp hb
    exact ⟨rfl, hp.2 r hr⟩

theorem blk_ZR {T : Irrep → Irrep → Irrep} {F : List α → List α → List β} {p1 p2 : MulIrrep × Chunk α}
    (h1 : shapeOk p1.1 p1.2 = true) (h2 : shapeOk p2.1 p2.2 = true) (hm : p1.1.mul = p2.1.mul)
    (hl : ∀ r s, r.length = p1.1.ir.dim → s.length = p2.1.ir.dim → (F r s).length = (T p1.1.ir p2.1.ir).dim)
    (hz1 : ∀ s, s.length = p2.1.ir.dim → F (List.replicate p1.1.ir.dim 0) s = List.replicate (T p1.1.ir p2.1.ir).dim 0)
    (hz2 : ∀ r, r.length = p1.1.ir.dim → F r (List.replicate p2.1.ir.dim 0) = List.replicate (T p1.1.ir p2.1.ir).dim 0) :
    shapeOk (ZR T F (p1, p2)).1 (ZR T F (p1, p2)).2 = true ∧
    blk (ZR T F (p1, p2)) = List.zipWith (fun b b' => (T b.1 b'.1, F b.2 b'.2)) (blk p1) (blk p2) := by
  obtain ⟨m1, c1⟩ := p1
  obtain ⟨m2, c2⟩ := p2
  simp only at hm hl hz1 hz2
  have hb1 := blk_dim _ h1
  have hb2 := blk_dim _ h2
  have key : ∀ c1 : Chunk α, ∀ c2 : Chunk α, shapeOk m1 c1 = true → shapeOk m2 c2 = true → (c1 = none ∨ c2 = none) →
      List.replicate m1.mul (T m1.ir m2.ir, List.replicate (T m1.ir m2.ir).dim (0 : β)) =
        List.zipWith (fun b b' => (T b.1 b'.1, F b.2 b'.2)) (blk (m1, c1)) (blk (m2, c2)) := by
    intro c1 c2 h1 h2 hc
    have hb1 := blk_dim (m1, c1) h1
    have hb2 := blk_dim (m2, c2) h2
    rcases hc with rfl | rfl
    · rw [blk_none, show m1.mul = (blk (m2, c2)).length by rw [blk_length]; exact hm, zipWith_replicate_left]
      symm
      rw [List.map_congr_left (g := fun _ => (T m1.ir m2.ir, List.replicate (T m1.ir m2.ir).dim (0 : β))), List.map_const']
      intro b hb
      rw [(hb2 b hb).1, hz1 _ (hb2 b hb).2]
    · rw [blk_none, show m2.mul = (blk (m1, c1)).length by rw [blk_length]; exact hm.symm, zipWith_replicate_right]
      symm
      rw [List.map_congr_left (g := fun _ => (T m1.ir m2.ir, List.replicate (T m1.ir m2.ir).dim (0 : β))), List.map_const', blk_length]
      intro b hb
      rw [(hb1 b hb).1, hz2 _ (hb1 b hb).2]
  cases c1 with
  | none =>
    refine ⟨rfl, ?_⟩
    rw [← key none c2 h1 h2 (Or.inl rfl)]
    show blk ((⟨m1.mul, _⟩ : MulIrrep), none) = _
    rw [blk_none]
  | some c1 =>
    cases c2 with
    | none =>
      refine ⟨rfl, ?_⟩
      rw [← key (some c1) none h1 h2 (Or.inr rfl)]
      show blk ((⟨m1.mul, _⟩ : MulIrrep), none) = _
      rw [blk_none]
    | some c2 =>
      rw [blk_some h1, blk_some h2]
      simp only [shapeOk, Bool.and_eq_true, beq_iff_eq, List.all_eq_true] at h1 h2
      have hs : shapeOk ⟨m1.mul, T m1.ir m2.ir⟩ (some (List.zipWith F c1 c2)) = true := by
        simp only [shapeOk, Bool.and_eq_true, beq_iff_eq, List.all_eq_true]
        refine ⟨by simp [h1.1, h2.1, hm], ?_⟩
        intro r hr
        obtain ⟨i, hi, rfl⟩ := List.mem_iff_getElem.mp hr
        rw [List.getElem_zipWith]
        exact hl _ _ (h1.2 _ (List.getElem_mem _)) (h2.2 _ (List.getElem_mem _))
      refine ⟨hs, ?_⟩
      show blk ((⟨m1.mul, T m1.ir m2.ir⟩ : MulIrrep), some (List.zipWith F c1 c2)) = _
      rw [blk_some hs, List.map_zipWith, List.zipWith_map]

theorem zip_flatMap_zipWith {γ : Type} (f : Irrep × List α → Irrep × List α → γ) {P1 P2 : List (MulIrrep × Chunk α)}
    (h : P1.map (fun p => p.1.mul) = P2.map fun p => p.1.mul) :
    (P1.zip P2).flatMap (fun q => List.zipWith f (blk q.1) (blk q.2)) = List.zipWith f (P1.flatMap blk) (P2.flatMap blk) := by
  induction P1 generalizing P2 with
  | nil => simp
  | cons p P1 ih =>
    cases P2 with
    | nil => simp at h
    | cons p' P2 =>
      simp only [List.map_cons, List.cons.injEq] at h
      simp only [List.zip_cons_cons, List.flatMap_cons]
      rw [List.zipWith_append (by rw [blk_length, blk_length]; exact h.1), ih h.2]

theorem zip_muls' {P1 P2 : List (MulIrrep × Chunk α)}
    (h : P1.map (fun p => p.1.mul) = P2.map fun p => p.1.mul) : ∀ q ∈ P1.zip P2, q.1.1.mul = q.2.1.mul := by
  induction P1 generalizing P2 with
  | nil => simp
  | cons p P1 ih =>
    cases P2 with
    | nil => simp
    | cons p' P2 =>
      simp only [List.map_cons, List.cons.injEq] at h
      intro q hq
      rw [List.zip_cons_cons, List.mem_cons] at hq
      rcases hq with rfl | hq
      · exact h.1
      · exact ih h.2 q hq

theorem pairs_muls' {u v : IArr α} (hu : Inv u) (hv : Inv v) (h : u.irreps.map MulIrrep.mul = v.irreps.map MulIrrep.mul) :
    (u.irreps.zip u.chunks).map (fun p => p.1.mul) = (v.irreps.zip v.chunks).map fun p => p.1.mul := by
  have a : (u.irreps.zip u.chunks).map (fun p => p.1.mul) = ((u.irreps.zip u.chunks).map Prod.fst).map MulIrrep.mul := by
    rw [List.map_map]; rfl
  have b : (v.irreps.zip v.chunks).map (fun p => p.1.mul) = ((v.irreps.zip v.chunks).map Prod.fst).map MulIrrep.mul := by
    rw [List.map_map]; rfl
  rw [a, b, hu.pairs.2.1, hv.pairs.2.1, h]

theorem zipRows_spec {T : Irrep → Irrep → Irrep} {F : List α → List α → List β} {u v : IArr α} (hu : Inv u) (hv : Inv v)
    (hm : u.irreps.map MulIrrep.mul = v.irreps.map MulIrrep.mul)
    (hl : ∀ m ∈ u.irreps, ∀ m' ∈ v.irreps, ∀ r s, r.length = m.ir.dim → s.length = m'.ir.dim → (m, m') ∈ u.irreps.zip v.irreps → (F r s).length = (T m.ir m'.ir).dim)
    (hz1 : ∀ m ∈ u.irreps, ∀ m' ∈ v.irreps, (m, m') ∈ u.irreps.zip v.irreps → ∀ s, s.length = m'.ir.dim → F (List.replicate m.ir.dim 0) s = List.replicate (T m.ir m'.ir).dim 0)
    (hz2 : ∀ m ∈ u.irreps, ∀ m' ∈ v.irreps, (m, m') ∈ u.irreps.zip v.irreps → ∀ r, r.length = m.ir.dim → F r (List.replicate m'.ir.dim 0) = List.replicate (T m.ir m'.ir).dim 0) :
    ∃ y, fromChunks (List.zipWith (fun m m' : MulIrrep => ⟨m.mul, T m.ir m'.ir⟩) u.irreps v.irreps) (List.zipWith (ZC F) u.chunks v.chunks) = .ok y ∧
      Inv y ∧ y.irreps = List.zipWith (fun m m' : MulIrrep => ⟨m.mul, T m.ir m'.ir⟩) u.irreps v.irreps ∧
      y.blocks = List.zipWith (fun b b' => (T b.1 b'.1, F b.2 b'.2)) u.blocks v.blocks := by
  have hpu := hu.pairs
  have hpv := hv.pairs
  have hmm := pairs_muls' hu hv hm
  have hq : ∀ q ∈ (u.irreps.zip u.chunks).zip (v.irreps.zip v.chunks), shapeOk (ZR T F q).1 (ZR T F q).2 = true ∧
      blk (ZR T F q) = List.zipWith (fun b b' => (T b.1 b'.1, F b.2 b'.2)) (blk q.1) (blk q.2) := by
    rintro ⟨p1, p2⟩ h
    have ha := List.of_mem_zip (a := p1) (b := p2) h
    have e1 : p1.1 ∈ u.irreps := (List.of_mem_zip (a := p1.1) (b := p1.2) ha.1).1
    have e2 : p2.1 ∈ v.irreps := (List.of_mem_zip (a := p2.1) (b := p2.2) ha.2).1
    have e3 : (p1.1, p2.1) ∈ u.irreps.zip v.irreps := by
      have : (p1.1, p2.1) ∈ ((u.irreps.zip u.chunks).zip (v.irreps.zip v.chunks)).map fun q => (q.1.1, q.2.1) := List.mem_map.mpr ⟨_, h, rfl⟩
      rw [← hpu.2.1, ← hpv.2.1, List.zip_map]
      exact this
    exact blk_ZR (hpu.1 _ ha.1) (hpv.1 _ ha.2) (zip_muls' hmm _ h) (fun r s h1 h2 => hl _ e1 _ e2 r s h1 h2 e3) (hz1 _ e1 _ e2 e3) (hz2 _ e1 _ e2 e3)
  obtain ⟨y, e1, e2, e3, e4, e5, e6⟩ := fromChunks_of_pairs (((u.irreps.zip u.chunks).zip (v.irreps.zip v.chunks)).map (ZR T F))
    (by intro q h; obtain ⟨p, hp, rfl⟩ := List.mem_map.mp h; exact (hq p hp).1)
    (ms := List.zipWith (fun m m' : MulIrrep => ⟨m.mul, T m.ir m'.ir⟩) u.irreps v.irreps) (cs := List.zipWith (ZC F) u.chunks v.chunks)
    (by conv_lhs => rw [← hpu.2.1, ← hpv.2.1]
        rw [List.zipWith_map, ← List.map_uncurry_zip_eq_zipWith, List.map_map]; rfl)
    (by conv_lhs => rw [← hpu.2.2.1, ← hpv.2.2.1]
        rw [List.zipWith_map, ← List.map_uncurry_zip_eq_zipWith, List.map_map]; rfl)
  refine ⟨y, e1, e2, e3, ?_⟩
  rw [e6, hu.blocks_pairs, hv.blocks_pairs, List.flatMap_map, ← zip_flatMap_zipWith _ hmm]
  exact List.flatMap_congr fun q h => (hq q h).2

end IArr
end E3nn

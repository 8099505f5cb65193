import Verif.Model.TensorProduct
import Verif.Lemmas.LinearSem
import Verif.Lemmas.LinearMatrix
import Verif.Props.C12_C20
import Verif.Props.C01_C02
import Mathlib.Data.Multiset.Bind

namespace E3nn
open IArr

namespace TP

variable {K : Type} [CommRing K]

/-- A tensor of shape `(d1, d2, d3)`. -/
def Shape3 (d1 d2 d3 : Nat) (C : List (List (List K))) : Prop :=
  C.length = d1 ∧ ∀ m ∈ C, m.length = d2 ∧ ∀ r ∈ m, r.length = d3

theorem inner_length {d1 d2 d3 : Nat} {C : List (List (List K))} (hC : Shape3 d1 d2 d3 C) (b : List K) :
    ∀ r ∈ C.map (fun ci => FLin.linComb d3 b ci), r.length = d3 := by
  intro r hr
  obtain ⟨ci, hci, rfl⟩ := List.mem_map.mp hr
  exact FLin.linComb_length _ _ _ (hC.2 ci hci).2

theorem contract_length {d1 d2 d3 : Nat} {C : List (List (List K))} (hC : Shape3 d1 d2 d3 C) (a b : List K) :
    (contract d3 C a b).length = d3 :=
  FLin.linComb_length _ _ _ (inner_length hC b)

theorem contract_zero_left {d1 d2 d3 : Nat} {C : List (List (List K))} (hC : Shape3 d1 d2 d3 C) (n : Nat) (b : List K) :
    contract d3 C (List.replicate n 0) b = List.replicate d3 0 :=
  FLin.linComb_zeros_left _ _ _ (inner_length hC b)

theorem contract_zero_right {d1 d2 d3 : Nat} {C : List (List (List K))} (hC : Shape3 d1 d2 d3 C) (n : Nat) (a : List K) :
    contract d3 C a (List.replicate n 0) = List.replicate d3 0 := by
  unfold contract
  have : C.map (fun ci => FLin.linComb d3 (List.replicate n 0) ci) = List.replicate C.length (List.replicate d3 0) := by
    rw [List.eq_replicate_iff]
    refine ⟨by simp, ?_⟩
    intro r hr
    obtain ⟨ci, hci, rfl⟩ := List.mem_map.mp hr
    exact FLin.linComb_zeros_left _ _ _ (hC.2 ci hci).2
  rw [this, FLin.linComb_zero]

theorem scale_shape {d1 d2 d3 : Nat} {C : List (List (List K))} (hC : Shape3 d1 d2 d3 C) (c : K) :
    Shape3 d1 d2 d3 (scaleCg c C) := by
  refine ⟨by simp [scaleCg, hC.1], ?_⟩
  intro m hm
  obtain ⟨m', hm', rfl⟩ := List.mem_map.mp hm
  refine ⟨by simp [(hC.2 m' hm').1], ?_⟩
  intro r hr
  obtain ⟨r', hr', rfl⟩ := List.mem_map.mp hr
  simp [(hC.2 m' hm').2 r' hr']

theorem linComb_scale_rows (d : Nat) (c : K) (x : List K) (A : List (List K)) :
    FLin.linComb d x (A.map fun r => r.map (c * ·)) = (FLin.linComb d x A).map (c * ·) := by
  induction x generalizing A with
  | nil => simp [FLin.linComb]
  | cons a x ih =>
    cases A with
    | nil => simp [FLin.linComb]
    | cons r A =>
      simp only [FLin.linComb, List.map_cons, ih, List.map_zipWith, List.zipWith_map_left, List.zipWith_map_right, List.map_map]
      congr 1
      funext u v
      simp only [mul_add, Function.comp_apply]
      ring

theorem contract_scale (d : Nat) (c : K) (C : List (List (List K))) (a b : List K) :
    contract d (scaleCg c C) a b = (contract d C a b).map (c * ·) := by
  unfold contract scaleCg
  rw [List.map_map]
  have : ((fun ci => FLin.linComb d b ci) ∘ fun m : List (List K) => m.map fun r => r.map (c * ·)) =
      fun ci => (FLin.linComb d b ci).map (c * ·) := by
    funext ci; exact linComb_scale_rows d c b ci
  rw [this, ← linComb_scale_rows, List.map_map]
  rfl

/-- The value of `normalized`. -/
def normC (ctx : TPCtx K) (n : IrNorm) (ir1 ir2 ir : Irrep) : List (List (List K)) :=
  match n with
  | .component => scaleCg (ctx.sqrt ir.dim) (ctx.cg ir1.l ir2.l ir.l)
  | .norm => scaleCg (ctx.sqrt (ir1.dim * ir2.dim)) (ctx.cg ir1.l ir2.l ir.l)
  | _ => ctx.cg ir1.l ir2.l ir.l

theorem normalized_eq (ctx : TPCtx K) {n : IrNorm} (hn : n ≠ .other) (ir1 ir2 ir : Irrep) :
    normalized ctx n ir1 ir2 ir = .ok (normC ctx n ir1 ir2 ir) := by
  cases n <;> first | rfl | exact absurd rfl hn

/-- The Clebsch-Gordan tensors have their shape. -/
def CgOk (ctx : TPCtx K) : Prop :=
  ∀ l1 l2 l3, Shape3 (2 * l1 + 1) (2 * l2 + 1) (2 * l3 + 1) (ctx.cg l1 l2 l3)

theorem normC_shape {ctx : TPCtx K} (h : CgOk ctx) (n : IrNorm) (ir1 ir2 ir : Irrep) :
    Shape3 ir1.dim ir2.dim ir.dim (normC ctx n ir1 ir2 ir) := by
  cases n
  · exact scale_shape (h _ _ _) _
  · exact scale_shape (h _ _ _) _
  · exact h _ _ _
  · exact h _ _ _

abbrev Pairing (K : Type) := List (List K) → List (List K) → List (List K × List K)

/-- The value of `path`. -/
def pathVal (C : List (List (List K))) (pair : Pairing K) (mul : Nat)
    (p1 p2 : MulIrrep × Chunk K) (ir : Irrep) : MulIrrep × Chunk K :=
  (⟨mul, ir⟩, match p1.2, p2.2 with
    | some a, some b => some (rowsOf ir.dim C (pair a b))
    | _, _ => none)

theorem path_eq (ctx : TPCtx K) {n : IrNorm} (hn : n ≠ .other) (pair : Pairing K) (mul : Nat)
    (p1 p2 : MulIrrep × Chunk K) (ir : Irrep) :
    path ctx n pair mul p1 p2 ir = .ok (pathVal (normC ctx n p1.1.ir p2.1.ir ir) pair mul p1 p2 ir) := by
  obtain ⟨m1, c1⟩ := p1
  obtain ⟨m2, c2⟩ := p2
  cases c1 <;> cases c2 <;> simp [path, pathVal, normalized_eq ctx hn] <;> rfl

theorem outer_length (a b : List (List K)) : (outer a b).length = a.length * b.length := by
  simp [outer, List.length_flatMap]

theorem rowsOf_row {d1 d2 d3 : Nat} {C : List (List (List K))} (hC : Shape3 d1 d2 d3 C) (ps : List (List K × List K)) :
    ∀ r ∈ rowsOf d3 C ps, r.length = d3 := by
  intro r hr
  obtain ⟨q, -, rfl⟩ := List.mem_map.mp hr
  exact contract_length hC _ _

theorem shapeOk_some {m : MulIrrep} {c : List (List K)} :
    shapeOk m (some c) = true ↔ c.length = m.mul ∧ ∀ r ∈ c, r.length = m.ir.dim := by
  simp [shapeOk]

theorem pathVal_shape {d1 d2 : Nat} {ir : Irrep} {C : List (List (List K))} (hC : Shape3 d1 d2 ir.dim C)
    (pair : Pairing K) {mul : Nat} {p1 p2 : MulIrrep × Chunk K}
    (hl : ∀ a b, p1.2 = some a → p2.2 = some b → (pair a b).length = mul) :
    shapeOk (pathVal C pair mul p1 p2 ir).1 (pathVal C pair mul p1 p2 ir).2 = true := by
  obtain ⟨m1, c1⟩ := p1
  obtain ⟨m2, c2⟩ := p2
  cases c1 with
  | none => rfl
  | some a =>
    cases c2 with
    | none => rfl
    | some b =>
      simp only [pathVal]
      rw [shapeOk_some]
      exact ⟨by simp [rowsOf, hl a b rfl rfl], rowsOf_row hC _⟩

theorem outer_shape {p1 p2 : MulIrrep × Chunk K} (h1 : shapeOk p1.1 p1.2 = true) (h2 : shapeOk p2.1 p2.2 = true) :
    ∀ a b, p1.2 = some a → p2.2 = some b → (outer a b).length = p1.1.mul * p2.1.mul := by
  intro a b ha hb
  rw [ha, shapeOk_some] at h1
  rw [hb, shapeOk_some] at h2
  rw [outer_length, h1.1, h2.1]

theorem zip_shape {p1 p2 : MulIrrep × Chunk K} (h1 : shapeOk p1.1 p1.2 = true) (h2 : shapeOk p2.1 p2.2 = true)
    (he : p1.1.mul = p2.1.mul) :
    ∀ a b, p1.2 = some a → p2.2 = some b → (List.zip a b).length = p1.1.mul := by
  intro a b ha hb
  rw [ha, shapeOk_some] at h1
  rw [hb, shapeOk_some] at h2
  rw [List.length_zip, h1.1, h2.1, ← he]; simp

/-- The blocks of an outer path. -/
theorem blk_outer {ir : Irrep} {C : List (List (List K))} {p1 p2 : MulIrrep × Chunk K}
    (hC : Shape3 p1.1.ir.dim p2.1.ir.dim ir.dim C)
    (h1 : shapeOk p1.1 p1.2 = true) (h2 : shapeOk p2.1 p2.2 = true) :
    blk (pathVal C outer (p1.1.mul * p2.1.mul) p1 p2 ir) =
      (blk p1).flatMap fun b1 => (blk p2).map fun b2 => (ir, contract ir.dim C b1.2 b2.2) := by
  have hs := pathVal_shape hC outer (outer_shape h1 h2)
  obtain ⟨m1, c1⟩ := p1
  obtain ⟨m2, c2⟩ := p2
  have hnone : ∀ (L : List (Irrep × List K)) (q : (Irrep × List K) → Irrep × List K) (n : Nat), L.length = n →
      (∀ b ∈ L, q b = (ir, List.replicate ir.dim 0)) → L.map q = List.replicate n (ir, List.replicate ir.dim 0) := by
    intro L q n hL hq
    rw [List.eq_replicate_iff]
    exact ⟨by simpa using hL, by intro b hb; obtain ⟨c, hc, rfl⟩ := List.mem_map.mp hb; exact hq c hc⟩
  have hz : ∀ n k (z : Irrep × List K), (List.replicate n (List.replicate k z)).flatten = List.replicate (n * k) z := by
    intro n k z; simp
  cases c1 with
  | none =>
    simp only [pathVal]
    rw [blk_none, blk_none, List.flatMap_replicate]
    rw [hnone (blk (m2, c2)) _ m2.mul (blk_length _) (fun b _ => by rw [contract_zero_left hC])]
    exact (hz _ _ _).symm
  | some a =>
    cases c2 with
    | none =>
      simp only [pathVal]
      rw [blk_none, blk_none]
      simp only [List.map_replicate, contract_zero_right hC]
      rw [List.flatMap_def, hnone' (blk (m1, some a)) _ m1.mul (blk_length _)]
      exact (hz _ _ _).symm
    | some b =>
      rw [blk_some h1, blk_some h2]
      simp only [pathVal] at *
      rw [blk_some hs]
      simp only [rowsOf, outer, List.map_flatMap, List.flatMap_map, List.map_map]
      rfl
where
  hnone' {β γ : Type} (L : List β) (z : γ) (n : Nat) (h : L.length = n) : L.map (fun _ => z) = List.replicate n z := by
    rw [List.map_const', h]

/-- The blocks of an elementwise path. -/
theorem blk_zip {ir : Irrep} {C : List (List (List K))} {p1 p2 : MulIrrep × Chunk K}
    (hC : Shape3 p1.1.ir.dim p2.1.ir.dim ir.dim C)
    (h1 : shapeOk p1.1 p1.2 = true) (h2 : shapeOk p2.1 p2.2 = true) (he : p1.1.mul = p2.1.mul) :
    blk (pathVal C List.zip p1.1.mul p1 p2 ir) =
      ((blk p1).zip (blk p2)).map fun b => (ir, contract ir.dim C b.1.2 b.2.2) := by
  have hs := pathVal_shape hC List.zip (zip_shape h1 h2 he)
  obtain ⟨m1, c1⟩ := p1
  obtain ⟨m2, c2⟩ := p2
  simp only at he
  have hlen : ((blk (m1, c1)).zip (blk (m2, c2))).length = m1.mul := by
    rw [List.length_zip, blk_length, blk_length]; simp only; omega
  have key : ∀ (L : List ((Irrep × List K) × (Irrep × List K))), L.length = m1.mul →
      (∀ b ∈ L, contract ir.dim C b.1.2 b.2.2 = List.replicate ir.dim 0) →
      L.map (fun b => (ir, contract ir.dim C b.1.2 b.2.2)) = List.replicate m1.mul (ir, List.replicate ir.dim 0) := by
    intro L hL hq
    rw [List.eq_replicate_iff]
    exact ⟨by simpa using hL, by intro b hb; obtain ⟨c, hc, rfl⟩ := List.mem_map.mp hb; rw [hq c hc]⟩
  cases c1 with
  | none =>
    simp only [pathVal]
    rw [blk_none, key _ hlen]
    intro b hb
    have := (List.of_mem_zip hb).1
    rw [blk_none] at this
    rw [(List.mem_replicate.mp this).2, contract_zero_left hC]
  | some a =>
    cases c2 with
    | none =>
      simp only [pathVal]
      rw [blk_none, key _ hlen]
      intro b hb
      have := (List.of_mem_zip hb).2
      rw [blk_none] at this
      rw [(List.mem_replicate.mp this).2, contract_zero_right hC]
    | some b =>
      rw [blk_some h1, blk_some h2]
      simp only [pathVal] at *
      rw [blk_some hs]
      simp only [rowsOf, List.zip_map, List.map_map]
      rfl

theorem flatMap_comm_perm {β γ δ : Type} (l : List β) (k : List γ) (f : β → γ → List δ) :
    (l.flatMap fun a => k.flatMap fun b => f a b).Perm (k.flatMap fun b => l.flatMap fun a => f a b) := by
  have h := Multiset.bind_bind (l : Multiset β) (k : Multiset γ) (f := fun a b => (f a b : Multiset δ))
  simp only [Multiset.coe_bind, Multiset.coe_eq_coe] at h
  exact h

theorem flatMap_perm_congr {β γ : Type} (l : List β) {f g : β → List γ} (h : ∀ a ∈ l, (f a).Perm (g a)) :
    (l.flatMap f).Perm (l.flatMap g) := List.Perm.flatMap_left l h

/-- `fromChunks`, `sort`, `regroup`. -/
theorem finish_spec (rg : Bool) {ps : List (MulIrrep × Chunk K)} (h : Shaped ps) :
    ∃ y, finish rg ps = .ok y ∧ Inv y ∧ y.blocks.Perm (ps.flatMap blk) ∧
      (y.blocks.map Prod.fst).Pairwise (fun a b => b.lt a = false) ∧
      (∀ ir, y.blocks.filter (fun b => decide (b.1 = ir)) = (ps.flatMap blk).filter fun b => decide (b.1 = ir)) ∧
      (if rg then (Irreps.sortIrreps (ps.map Prod.fst)).regroup = .ok y.irreps
        else y.irreps = Irreps.sortIrreps (ps.map Prod.fst)) := by
  obtain ⟨y, h1, h2, h3, h4, h5, h6, h7, h8⟩ := fromChunks_pairs _ h
  have hb : y.blocks = ps.flatMap blk := by
    rw [h2.blocks_pairs, h3, h7, List.zip_map']; simp
  obtain ⟨z, z1, z2, z3, z4, z5, r, hr, z6⟩ := C17_sort y h2.coherent
  rw [Irreps.sort_eq] at hr
  cases hr
  rw [h3] at z6
  cases rg with
  | false =>
    refine ⟨z, ?_, z2.inv, by rw [← hb]; exact z3, z4, by rw [← hb]; exact z5, z6⟩
    unfold finish
    rw [h1]; simp only [bind, Except.bind, z1]; rfl
  | true =>
    obtain ⟨w, w1, w2, w3, w4, w5, w6⟩ := C17_regroup z z2
    refine ⟨w, ?_, w2.inv, by rw [← hb]; exact w3.trans z3, w4, fun ir => by rw [w5, z5, hb], ?_⟩
    · unfold finish
      rw [h1]; simp only [bind, Except.bind, z1]; exact w1
    · rw [if_pos rfl, ← w6, z6]

theorem prepare_spec (rg : Bool) {x : IArr K} (hx : Inv x) :
    ∃ z, prepare rg x = .ok z ∧ Inv z ∧ z.blocks.Perm x.blocks := by
  cases rg with
  | false => exact ⟨x, rfl, hx, List.Perm.refl _⟩
  | true =>
    obtain ⟨w, w1, w2, w3, -⟩ := C17_regroup x hx.coherent
    exact ⟨w, w1, w2.inv, w3⟩

/-- All products of two lists of blocks. -/
def allProducts (ctx : TPCtx K) (n : IrNorm) (filter : Option (List Irrep)) (B1 B2 : List (Irrep × List K)) :
    List (Irrep × List K) :=
  B1.flatMap fun b1 => B2.flatMap fun b2 => (irsOut filter b1.1 b2.1).map fun ir =>
    (ir, contract ir.dim (normC ctx n b1.1 b2.1 ir) b1.2 b2.2)

theorem allProducts_perm (ctx : TPCtx K) (n : IrNorm) (filter : Option (List Irrep)) {B1 B2 B1' B2' : List (Irrep × List K)}
    (h1 : B1.Perm B1') (h2 : B2.Perm B2') :
    (allProducts ctx n filter B1 B2).Perm (allProducts ctx n filter B1' B2') := by
  unfold allProducts
  exact (h1.flatMap_right _).trans (flatMap_perm_congr _ fun b _ => h2.flatMap_right _)

theorem blk_fst (p : MulIrrep × Chunk K) : ∀ b ∈ blk p, b.1 = p.1.ir := by
  intro b hb
  have : b.1 ∈ (blk p).map Prod.fst := List.mem_map_of_mem hb
  rw [blk, blocksOf_fst] at this
  exact (List.mem_replicate.mp this).2

/-- The list of entries of `tensor_product`. -/
def tpEntries (ctx : TPCtx K) (n : IrNorm) (filter : Option (List Irrep)) (P1 P2 : List (MulIrrep × Chunk K)) :
    List (MulIrrep × Chunk K) :=
  (triples filter P1 P2).map fun t =>
    pathVal (normC ctx n t.1.1.ir t.2.1.1.ir t.2.2) outer (t.1.1.mul * t.2.1.1.mul) t.1 t.2.1 t.2.2

theorem mem_triples {filter : Option (List Irrep)} {P1 P2 : List (MulIrrep × Chunk K)} {t}
    (h : t ∈ triples filter P1 P2) : t.1 ∈ P1 ∧ t.2.1 ∈ P2 ∧ t.2.2 ∈ irsOut filter t.1.1.ir t.2.1.1.ir := by
  unfold triples at h
  simp only [List.mem_flatMap, List.mem_map] at h
  obtain ⟨p1, h1, p2, h2, ir, h3, rfl⟩ := h
  exact ⟨h1, h2, h3⟩

theorem tpEntries_shaped {ctx : TPCtx K} (hc : CgOk ctx) (n : IrNorm) (filter : Option (List Irrep))
    {P1 P2 : List (MulIrrep × Chunk K)} (h1 : Shaped P1) (h2 : Shaped P2) : Shaped (tpEntries ctx n filter P1 P2) := by
  intro q hq
  obtain ⟨t, ht, rfl⟩ := List.mem_map.mp hq
  obtain ⟨m1, m2, -⟩ := mem_triples ht
  exact pathVal_shape (normC_shape hc n _ _ _) outer (outer_shape (h1 _ m1) (h2 _ m2))

theorem tpEntries_blk {ctx : TPCtx K} (hc : CgOk ctx) (n : IrNorm) (filter : Option (List Irrep))
    {P1 P2 : List (MulIrrep × Chunk K)} (h1 : Shaped P1) (h2 : Shaped P2) :
    (tpEntries ctx n filter P1 P2).flatMap blk = P1.flatMap fun p1 => P2.flatMap fun p2 =>
      (irsOut filter p1.1.ir p2.1.ir).flatMap fun ir => (blk p1).flatMap fun b1 => (blk p2).map fun b2 =>
        (ir, contract ir.dim (normC ctx n p1.1.ir p2.1.ir ir) b1.2 b2.2) := by
  unfold tpEntries triples
  simp only [List.flatMap_map, List.map_flatMap, List.flatMap_assoc, List.map_map]
  apply List.flatMap_congr
  intro p1 hp1
  apply List.flatMap_congr
  intro p2 hp2
  apply List.flatMap_congr
  intro ir _
  exact blk_outer (normC_shape hc n _ _ _) (h1 _ hp1) (h2 _ hp2)

theorem tpEntries_perm {ctx : TPCtx K} (hc : CgOk ctx) (n : IrNorm) (filter : Option (List Irrep))
    {P1 P2 : List (MulIrrep × Chunk K)} (h1 : Shaped P1) (h2 : Shaped P2) :
    ((tpEntries ctx n filter P1 P2).flatMap blk).Perm
      (allProducts ctx n filter (P1.flatMap blk) (P2.flatMap blk)) := by
  rw [tpEntries_blk hc n filter h1 h2]
  unfold allProducts
  rw [List.flatMap_assoc]
  apply flatMap_perm_congr
  intro p1 _
  -- move the loop on `b1` out
  have step : ∀ p2 : MulIrrep × Chunk K,
      ((irsOut filter p1.1.ir p2.1.ir).flatMap fun ir => (blk p1).flatMap fun b1 => (blk p2).map fun b2 =>
        (ir, contract ir.dim (normC ctx n p1.1.ir p2.1.ir ir) b1.2 b2.2)).Perm
      ((blk p1).flatMap fun b1 => (blk p2).flatMap fun b2 => (irsOut filter b1.1 b2.1).map fun ir =>
        (ir, contract ir.dim (normC ctx n b1.1 b2.1 ir) b1.2 b2.2)) := by
    intro p2
    refine (flatMap_comm_perm _ _ _).trans (flatMap_perm_congr _ fun b1 hb1 => ?_)
    have e : (fun ir => (blk p2).map fun b2 => (ir, contract ir.dim (normC ctx n p1.1.ir p2.1.ir ir) b1.2 b2.2)) =
        fun ir => (blk p2).flatMap fun b2 => [(ir, contract ir.dim (normC ctx n p1.1.ir p2.1.ir ir) b1.2 b2.2)] := by
      funext ir; rw [List.map_eq_flatMap]
    rw [e]
    refine (flatMap_comm_perm _ _ _).trans (flatMap_perm_congr _ fun b2 hb2 => ?_)
    rw [blk_fst _ _ hb1, blk_fst _ _ hb2, List.map_eq_flatMap]
  refine (flatMap_perm_congr _ fun p2 _ => step p2).trans ?_
  refine (flatMap_comm_perm _ _ _).trans (flatMap_perm_congr _ fun b1 _ => ?_)
  rw [List.flatMap_assoc]

theorem tensorProduct_spec {ctx : TPCtx K} (hc : CgOk ctx) {n : IrNorm} (hn : n ≠ .other) (filter : Option (List Irrep))
    (rg : Bool) {x1 x2 : IArr K} (h1 : Inv x1) (h2 : Inv x2) :
    ∃ z1 z2 y, prepare rg x1 = .ok z1 ∧ prepare rg x2 = .ok z2 ∧ Inv z1 ∧ Inv z2 ∧
      finish rg (tpEntries ctx n filter (z1.irreps.zip z1.chunks) (z2.irreps.zip z2.chunks)) = .ok y ∧
      tensorProduct ctx n filter rg x1 x2 = .ok y ∧ Inv y ∧
      y.blocks.Perm (allProducts ctx n filter x1.blocks x2.blocks) ∧
      (y.blocks.map Prod.fst).Pairwise (fun a b => b.lt a = false) := by
  obtain ⟨z1, a1, a2, a3⟩ := prepare_spec rg h1
  obtain ⟨z2, b1, b2, b3⟩ := prepare_spec rg h2
  have hs := tpEntries_shaped hc n filter a2.pairs.1 b2.pairs.1
  obtain ⟨y, y1, y2, y3, y4, -⟩ := finish_spec rg hs
  refine ⟨z1, z2, y, a1, b1, a2, b2, y1, ?_, y2, ?_, y4⟩
  · unfold tensorProduct
    rw [a1, b1]
    simp only [bind, Except.bind]
    rw [FLin.mapM_ok _ (fun t _ => path_eq ctx hn outer (t.1.1.mul * t.2.1.1.mul) t.1 t.2.1 t.2.2)]
    exact y1
  · refine y3.trans ((tpEntries_perm hc n filter a2.pairs.1 b2.pairs.1).trans ?_)
    rw [← a2.blocks_pairs, ← b2.blocks_pairs]
    exact allProducts_perm ctx n filter a3 b3

/-! ### equivariance -/

variable {D : Irrep → List K → List K}

/-- The Clebsch-Gordan tensors intertwine the action. -/
def Intertwine (ctx : TPCtx K) (D : Irrep → List K → List K) : Prop :=
  ∀ ir1 ir2 ir : Irrep, ir ∈ ir1.mul ir2 → ∀ a b : List K, a.length = ir1.dim → b.length = ir2.dim →
    contract ir.dim (ctx.cg ir1.l ir2.l ir.l) (D ir1 a) (D ir2 b) =
      D ir (contract ir.dim (ctx.cg ir1.l ir2.l ir.l) a b)

theorem scale_intertwine {ctx : TPCtx K} (hc : CgOk ctx) (hD : FLin.LinAct D) (hI : Intertwine ctx D) (c : K)
    {ir1 ir2 ir : Irrep} (h : ir ∈ ir1.mul ir2) {a b : List K} (ha : a.length = ir1.dim) (hb : b.length = ir2.dim) :
    contract ir.dim (scaleCg c (ctx.cg ir1.l ir2.l ir.l)) (D ir1 a) (D ir2 b) =
      D ir (contract ir.dim (scaleCg c (ctx.cg ir1.l ir2.l ir.l)) a b) := by
  rw [contract_scale, contract_scale, hI ir1 ir2 ir h a b ha hb]
  exact (hD.smul ir c _ (contract_length (hc ir1.l ir2.l ir.l) a b)).symm

theorem normC_intertwine {ctx : TPCtx K} (hc : CgOk ctx) (hD : FLin.LinAct D) (hI : Intertwine ctx D) (n : IrNorm)
    {ir1 ir2 ir : Irrep} (h : ir ∈ ir1.mul ir2) {a b : List K} (ha : a.length = ir1.dim) (hb : b.length = ir2.dim) :
    contract ir.dim (normC ctx n ir1 ir2 ir) (D ir1 a) (D ir2 b) =
      D ir (contract ir.dim (normC ctx n ir1 ir2 ir) a b) := by
  cases n
  · exact scale_intertwine hc hD hI _ h ha hb
  · exact scale_intertwine hc hD hI _ h ha hb
  · exact hI _ _ _ h _ _ ha hb
  · exact hI _ _ _ h _ _ ha hb

theorem rowsOf_D {C : List (List (List K))} {ir1 ir2 ir : Irrep}
    (hC : ∀ a b : List K, a.length = ir1.dim → b.length = ir2.dim →
      contract ir.dim C (D ir1 a) (D ir2 b) = D ir (contract ir.dim C a b))
    (ps : List (List K × List K)) (hp : ∀ q ∈ ps, q.1.length = ir1.dim ∧ q.2.length = ir2.dim) :
    rowsOf ir.dim C (ps.map fun q => (D ir1 q.1, D ir2 q.2)) = (rowsOf ir.dim C ps).map (D ir) := by
  unfold rowsOf
  rw [List.map_map, List.map_map]
  apply List.map_congr_left
  intro q hq
  exact hC _ _ (hp q hq).1 (hp q hq).2

/-- A pairing of rows that does not look at the data. -/
structure Natural (pair : Pairing K) : Prop where
  map : ∀ (f g : List K → List K) a b, pair (a.map f) (b.map g) = (pair a b).map fun q => (f q.1, g q.2)
  mem : ∀ a b q, q ∈ pair a b → q.1 ∈ a ∧ q.2 ∈ b

theorem outer_natural : Natural (outer (K := K)) where
  map := by
    intro f g a b
    simp only [outer, List.flatMap_map, List.map_flatMap, List.map_map]
    rfl
  mem := by
    intro a b q hq
    simp only [outer, List.mem_flatMap, List.mem_map] at hq
    obtain ⟨r, h1, s, h2, rfl⟩ := hq
    exact ⟨h1, h2⟩

theorem zip_natural : Natural (List.zip : Pairing K) where
  map := by intro f g a b; rw [List.zip_map]; rfl
  mem := by intro a b q hq; exact List.of_mem_zip hq

theorem pathVal_T {C : List (List (List K))} {pair : Pairing K} (hp : Natural pair) {mul : Nat}
    {p1 p2 : MulIrrep × Chunk K} {ir : Irrep} (h1 : shapeOk p1.1 p1.2 = true) (h2 : shapeOk p2.1 p2.2 = true)
    (hC : ∀ a b : List K, a.length = p1.1.ir.dim → b.length = p2.1.ir.dim →
      contract ir.dim C (D p1.1.ir a) (D p2.1.ir b) = D ir (contract ir.dim C a b)) :
    pathVal C pair mul (T D p1) (T D p2) ir = T D (pathVal C pair mul p1 p2 ir) := by
  obtain ⟨m1, c1⟩ := p1
  obtain ⟨m2, c2⟩ := p2
  cases c1 with
  | none => rfl
  | some a =>
    cases c2 with
    | none => rfl
    | some b =>
      rw [shapeOk_some] at h1 h2
      simp only [T, actRows, Option.map_some, pathVal, hp.map]
      rw [rowsOf_D hC _ fun q hq => ⟨h1.2 _ (hp.mem _ _ _ hq).1, h2.2 _ (hp.mem _ _ _ hq).2⟩]

theorem tr_finish (hD : Act D) (rg : Bool) {ps : List (MulIrrep × Chunk K)} (h : Shaped ps) {y : IArr K}
    (hy : finish rg ps = .ok y) : ∃ y', finish rg (ps.map (T D)) = .ok y' ∧ Tr D y y' := by
  obtain ⟨u, u', u1, u2, u3, -⟩ := tr_fromChunks hD h
  obtain ⟨v, v1, -⟩ := sort_spec u3.inv
  obtain ⟨v', v1', hv⟩ := tr_sort hD u3 v1
  have e1 : (ps.map (T D)).map Prod.fst = ps.map Prod.fst := by rw [List.map_map]; rfl
  unfold finish at *
  rw [e1, u2]
  rw [u1] at hy
  simp only [bind, Except.bind, v1, v1'] at *
  cases rg with
  | false => cases hy; exact ⟨v', rfl, hv⟩
  | true => exact tr_regroup hD hv hy

theorem tr_prepare (hD : Act D) (rg : Bool) {x x' z : IArr K} (h : Tr D x x') (hz : prepare rg x = .ok z) :
    ∃ z', prepare rg x' = .ok z' ∧ Tr D z z' := by
  cases rg with
  | false => cases hz; exact ⟨x', rfl, h⟩
  | true => exact tr_regroup hD h hz

theorem tpEntries_T {ctx : TPCtx K} (hc : CgOk ctx) (hD : FLin.LinAct D) (hI : Intertwine ctx D) (n : IrNorm)
    (filter : Option (List Irrep)) {P1 P2 : List (MulIrrep × Chunk K)} (h1 : Shaped P1) (h2 : Shaped P2) :
    tpEntries ctx n filter (P1.map (T D)) (P2.map (T D)) = (tpEntries ctx n filter P1 P2).map (T D) := by
  unfold tpEntries
  have ht : triples filter (P1.map (T D)) (P2.map (T D)) =
      (triples filter P1 P2).map fun t => (T D t.1, T D t.2.1, t.2.2) := by
    simp only [triples, List.flatMap_map, List.map_flatMap, List.map_map]
    rfl
  rw [ht, List.map_map, List.map_map]
  apply List.map_congr_left
  intro t ht
  obtain ⟨m1, m2, m3⟩ := mem_triples ht
  exact pathVal_T outer_natural (h1 _ m1) (h2 _ m2)
    fun a b ha hb => normC_intertwine hc hD hI n (List.mem_of_mem_filter m3) ha hb

theorem tr_tensorProduct {ctx : TPCtx K} (hc : CgOk ctx) (hD : FLin.LinAct D) (hI : Intertwine ctx D) {n : IrNorm}
    (hn : n ≠ .other) (filter : Option (List Irrep)) (rg : Bool) {x1 x1' x2 x2' y : IArr K}
    (t1 : Tr D x1 x1') (t2 : Tr D x2 x2') (hy : tensorProduct ctx n filter rg x1 x2 = .ok y) :
    ∃ y', tensorProduct ctx n filter rg x1' x2' = .ok y' ∧ Tr D y y' := by
  obtain ⟨z1, z2, w, a1, a2, a3, a4, a5, a6, -⟩ := tensorProduct_spec hc hn filter rg t1.inv t2.inv
  obtain ⟨z1', z2', w', b1, b2, b3, b4, b5, b6, -⟩ := tensorProduct_spec hc hn filter rg t1.inv' t2.inv'
  rw [hy] at a6; cases a6
  refine ⟨w', b6, ?_⟩
  obtain ⟨u1, c1, d1⟩ := tr_prepare hD.toAct rg t1 a1
  rw [b1] at c1; cases c1
  obtain ⟨u2, c2, d2⟩ := tr_prepare hD.toAct rg t2 a2
  rw [b2] at c2; cases c2
  obtain ⟨v, v1, v2⟩ := tr_finish hD.toAct rg (tpEntries_shaped hc n filter a3.pairs.1 a4.pairs.1) a5
  rw [← tpEntries_T hc hD hI n filter a3.pairs.1 a4.pairs.1, ← d1.pairs, ← d2.pairs, b5] at v1
  cases v1; exact v2

/-! ### elementwise -/

theorem alignLoop_expand (fuel : Nat) (l k : Irreps) :
    expand (alignLoop fuel l k).1 = expand l ∧ expand (alignLoop fuel l k).2 = expand k := by
  induction fuel generalizing l k with
  | zero => simp [alignLoop]
  | succ fuel ih =>
    cases l with
    | nil => simp [alignLoop]
    | cons m1 l =>
      cases k with
      | nil => simp [alignLoop]
      | cons m2 k =>
        simp only [alignLoop]
        split
        · rename_i h
          obtain ⟨i1, i2⟩ := ih l (⟨m2.mul - m1.mul, m2.ir⟩ :: k)
          simp only [expand_cons, i1, i2]
          rw [← List.append_assoc, ← List.replicate_add]
          refine ⟨trivial, ?_⟩
          congr 2; omega
        · split
          · rename_i h
            obtain ⟨i1, i2⟩ := ih (⟨m1.mul - m2.mul, m1.ir⟩ :: l) k
            simp only [expand_cons, i1, i2]
            rw [← List.append_assoc, ← List.replicate_add]
            refine ⟨?_, trivial⟩
            congr 2; omega
          · obtain ⟨i1, i2⟩ := ih l k
            simp only [expand_cons, i1, i2, and_self]

theorem alignLoop_muls (fuel : Nat) (l k : Irreps) (hf : l.length + k.length ≤ fuel)
    (hl : ∀ m ∈ l, 0 < m.mul) (hk : ∀ m ∈ k, 0 < m.mul) (hn : l.numIrreps = k.numIrreps) :
    (alignLoop fuel l k).1.map MulIrrep.mul = (alignLoop fuel l k).2.map MulIrrep.mul := by
  induction fuel generalizing l k with
  | zero =>
    have h1 : l = [] := List.length_eq_zero_iff.mp (by omega)
    have h2 : k = [] := List.length_eq_zero_iff.mp (by omega)
    subst h1 h2; rfl
  | succ fuel ih =>
    cases l with
    | nil =>
      cases k with
      | nil => rfl
      | cons m k =>
        have := hk m (by simp)
        simp [Irreps.numIrreps] at hn; omega
    | cons m1 l =>
      cases k with
      | nil =>
        have := hl m1 (by simp)
        simp [Irreps.numIrreps] at hn; omega
      | cons m2 k =>
        simp only [alignLoop]
        simp only [Irreps.numIrreps, List.map_cons, List.sum_cons] at hn
        simp only [List.length_cons] at hf
        have hl' : ∀ m ∈ l, 0 < m.mul := fun m hm => hl m (by simp [hm])
        have hk' : ∀ m ∈ k, 0 < m.mul := fun m hm => hk m (by simp [hm])
        split
        · rename_i h
          simp only [List.map_cons, List.cons.injEq, true_and]
          refine ih _ _ (by simp only [List.length_cons]; omega) hl' ?_ ?_
          · intro m hm
            rcases List.mem_cons.mp hm with rfl | hm
            · simp only; omega
            · exact hk' m hm
          · simp only [Irreps.numIrreps, List.map_cons, List.sum_cons]; omega
        · split
          · rename_i h
            simp only [List.map_cons, List.cons.injEq, true_and]
            refine ih _ _ (by simp only [List.length_cons]; omega) ?_ hk' ?_
            · intro m hm
              rcases List.mem_cons.mp hm with rfl | hm
              · simp only; omega
              · exact hl' m hm
            · simp only [Irreps.numIrreps, List.map_cons, List.sum_cons]; omega
          · simp only [List.map_cons, List.cons.injEq]
            refine ⟨by omega, ih _ _ (by omega) hl' hk' ?_⟩
            simp only [Irreps.numIrreps]; omega

theorem alignTwo_ok {x y : Irreps} (hx : ∀ m ∈ x, 0 < m.mul) (hy : ∀ m ∈ y, 0 < m.mul) (hn : x.numIrreps = y.numIrreps) :
    ∃ r, alignTwo x y = .ok r := by
  unfold alignTwo
  rw [if_neg (by simpa using hn)]
  simp only
  rw [if_neg (by simpa using alignLoop_muls _ x y (Nat.le_refl _) hx hy hn)]
  exact ⟨_, rfl⟩

theorem alignTwo_spec {x y : Irreps} {r : Irreps × Irreps} (h : alignTwo x y = .ok r) :
    expand r.1 = expand x ∧ expand r.2 = expand y ∧ r.1.map MulIrrep.mul = r.2.map MulIrrep.mul := by
  unfold alignTwo at h
  split at h
  · simp at h
  · simp only at h
    split at h
    · simp at h
    · rename_i hm
      cases h
      exact ⟨(alignLoop_expand _ _ _).1, (alignLoop_expand _ _ _).2, by simpa using hm⟩

theorem alignArrays_spec {x y : IArr K} (hx : Inv x) (hy : Inv y) {r : Irreps × Irreps} (h : alignTwo x.irreps y.irreps = .ok r) :
    ∃ u v, alignArrays x y = .ok (u, v) ∧ x.rechunk r.1 = .ok u ∧ y.rechunk r.2 = .ok v ∧ Inv u ∧ Inv v ∧
      u.irreps = r.1 ∧ v.irreps = r.2 ∧ u.blocks = x.blocks ∧ v.blocks = y.blocks := by
  obtain ⟨e1, e2, e3⟩ := alignTwo_spec h
  obtain ⟨u, u1, u2, u3, u4⟩ := rechunk_spec hx (new := r.1) e1.symm
  obtain ⟨v, v1, v2, v3, v4⟩ := rechunk_spec hy (new := r.2) e2.symm
  refine ⟨u, v, ?_, u1, v1, u2, v2, u3, v3, ?_, ?_⟩
  · unfold alignArrays
    rw [h]
    simp only [bind, Except.bind, u1, v1]
    rw [if_neg (by rw [u3, v3]; simpa using e3)]; rfl
  · unfold IArr.blocks; rw [u3, u4, e1]
  · unfold IArr.blocks; rw [v3, v4, e2]

/-- Paired entries of two lists of terms with equal multiplicities. -/
theorem zip_muls {P1 P2 : List (MulIrrep × Chunk K)}
    (h : P1.map (fun p => p.1.mul) = P2.map fun p => p.1.mul) : ∀ q ∈ P1.zip P2, q.1.1.mul = q.2.1.mul := by
  induction P1 generalizing P2 with
  | nil => simp
  | cons p P1 ih =>
    cases P2 with
    | nil => simp
    | cons p' P2 =>
      simp only [List.map_cons, List.cons.injEq] at h
      intro q hq
      simp only [List.zip_cons_cons, List.mem_cons] at hq
      rcases hq with rfl | hq
      · exact h.1
      · exact ih h.2 q hq

theorem zip_blk {P1 P2 : List (MulIrrep × Chunk K)}
    (h : P1.map (fun p => p.1.mul) = P2.map fun p => p.1.mul) :
    (P1.zip P2).flatMap (fun q => (blk q.1).zip (blk q.2)) = (P1.flatMap blk).zip (P2.flatMap blk) := by
  induction P1 generalizing P2 with
  | nil => simp
  | cons p P1 ih =>
    cases P2 with
    | nil => simp at h
    | cons p' P2 =>
      simp only [List.map_cons, List.cons.injEq] at h
      simp only [List.zip_cons_cons, List.flatMap_cons, ih h.2]
      rw [List.zip_append (by rw [blk_length, blk_length]; exact h.1)]

/-- The entries of `elementwise_tensor_product`. -/
def elEntries (ctx : TPCtx K) (n : IrNorm) (filter : Option (List Irrep)) (P1 P2 : List (MulIrrep × Chunk K)) :
    List (MulIrrep × Chunk K) :=
  ((P1.zip P2).flatMap fun pq => (irsOut filter pq.1.1.ir pq.2.1.ir).map fun ir => (pq, ir)).map fun t =>
    pathVal (normC ctx n t.1.1.1.ir t.1.2.1.ir t.2) List.zip t.1.1.1.mul t.1.1 t.1.2 t.2

theorem elEntries_shaped {ctx : TPCtx K} (hc : CgOk ctx) (n : IrNorm) (filter : Option (List Irrep))
    {P1 P2 : List (MulIrrep × Chunk K)} (h1 : Shaped P1) (h2 : Shaped P2)
    (h : P1.map (fun p => p.1.mul) = P2.map fun p => p.1.mul) : Shaped (elEntries ctx n filter P1 P2) := by
  intro q hq
  obtain ⟨t, ht, rfl⟩ := List.mem_map.mp hq
  simp only [List.mem_flatMap, List.mem_map] at ht
  obtain ⟨pq, hpq, ir, -, rfl⟩ := ht
  exact pathVal_shape (normC_shape hc n _ _ _) List.zip
    (zip_shape (h1 _ (List.of_mem_zip hpq).1) (h2 _ (List.of_mem_zip hpq).2) (zip_muls h _ hpq))

/-- The products of the paired blocks. -/
def zipProducts (ctx : TPCtx K) (n : IrNorm) (filter : Option (List Irrep)) (B1 B2 : List (Irrep × List K)) :
    List (Irrep × List K) :=
  (B1.zip B2).flatMap fun b => (irsOut filter b.1.1 b.2.1).map fun ir =>
    (ir, contract ir.dim (normC ctx n b.1.1 b.2.1 ir) b.1.2 b.2.2)

theorem elEntries_perm {ctx : TPCtx K} (hc : CgOk ctx) (n : IrNorm) (filter : Option (List Irrep))
    {P1 P2 : List (MulIrrep × Chunk K)} (h1 : Shaped P1) (h2 : Shaped P2)
    (h : P1.map (fun p => p.1.mul) = P2.map fun p => p.1.mul) :
    ((elEntries ctx n filter P1 P2).flatMap blk).Perm (zipProducts ctx n filter (P1.flatMap blk) (P2.flatMap blk)) := by
  unfold elEntries zipProducts
  rw [← zip_blk h]
  simp only [List.flatMap_map, List.map_flatMap, List.flatMap_assoc, List.map_map]
  apply flatMap_perm_congr
  intro pq hpq
  have e : ∀ ir, blk (pathVal (normC ctx n pq.1.1.ir pq.2.1.ir ir) List.zip pq.1.1.mul pq.1 pq.2 ir) =
      ((blk pq.1).zip (blk pq.2)).flatMap fun b =>
        [(ir, contract ir.dim (normC ctx n pq.1.1.ir pq.2.1.ir ir) b.1.2 b.2.2)] := by
    intro ir
    rw [blk_zip (normC_shape hc n _ _ _) (h1 _ (List.of_mem_zip hpq).1) (h2 _ (List.of_mem_zip hpq).2) (zip_muls h _ hpq),
      List.map_eq_flatMap]
  refine ((List.flatMap_congr fun ir _ => e ir) ▸ (flatMap_comm_perm _ _ _)).trans (flatMap_perm_congr _ fun b hb => ?_)
  rw [blk_fst _ _ (List.of_mem_zip hb).1, blk_fst _ _ (List.of_mem_zip hb).2, List.map_eq_flatMap]

theorem pairs_muls {u v : IArr K} (hu : Inv u) (hv : Inv v) (h : u.irreps.map MulIrrep.mul = v.irreps.map MulIrrep.mul) :
    (u.irreps.zip u.chunks).map (fun p => p.1.mul) = (v.irreps.zip v.chunks).map fun p => p.1.mul := by
  have e1 := hu.pairs.2.1
  have e2 := hv.pairs.2.1
  have a : (u.irreps.zip u.chunks).map (fun p => p.1.mul) = ((u.irreps.zip u.chunks).map Prod.fst).map MulIrrep.mul := by
    rw [List.map_map]; rfl
  have b : (v.irreps.zip v.chunks).map (fun p => p.1.mul) = ((v.irreps.zip v.chunks).map Prod.fst).map MulIrrep.mul := by
    rw [List.map_map]; rfl
  rw [a, b, e1, e2, h]

theorem elementwise_spec {ctx : TPCtx K} (hc : CgOk ctx) {n : IrNorm} (hn : n ≠ .other) (filter : Option (List Irrep))
    {x1 x2 : IArr K} (h1 : Inv x1) (h2 : Inv x2) (hnum : x1.irreps.numIrreps = x2.irreps.numIrreps)
    {r : Irreps × Irreps} (hr : alignTwo x1.irreps x2.irreps = .ok r) :
    ∃ u v y, alignArrays x1 x2 = .ok (u, v) ∧ Inv u ∧ Inv v ∧ u.irreps = r.1 ∧ v.irreps = r.2 ∧
      x1.rechunk r.1 = .ok u ∧ x2.rechunk r.2 = .ok v ∧
      elementwise ctx n filter x1 x2 = .ok y ∧ Inv y ∧
      y.irreps.zip y.chunks = elEntries ctx n filter (u.irreps.zip u.chunks) (v.irreps.zip v.chunks) ∧
      y.blocks.Perm (zipProducts ctx n filter x1.blocks x2.blocks) := by
  obtain ⟨u, v, a1, a2, a3, a4, a5, a6, a7, a8, a9⟩ := alignArrays_spec h1 h2 hr
  have hm := (alignTwo_spec hr).2.2
  have hm' := pairs_muls a4 a5 (by rw [a6, a7, hm])
  have hs := elEntries_shaped hc n filter a4.pairs.1 a5.pairs.1 hm'
  obtain ⟨y, y1, y2, y3, y4, y5, y6, y7, y8⟩ := fromChunks_pairs _ hs
  have hz : y.irreps.zip y.chunks = elEntries ctx n filter (u.irreps.zip u.chunks) (v.irreps.zip v.chunks) := by
    rw [y3, y7, List.zip_map']; simp
  refine ⟨u, v, y, a1, a4, a5, a6, a7, a2, a3, ?_, y2, hz, ?_⟩
  · unfold elementwise
    rw [if_neg (by simpa using hnum), a1]
    simp only [bind, Except.bind]
    rw [FLin.mapM_ok _ (fun t _ => path_eq ctx hn List.zip t.1.1.1.mul t.1.1 t.1.2 t.2)]
    exact y1
  · rw [y2.blocks_pairs, hz, ← a8, ← a9, a4.blocks_pairs, a5.blocks_pairs]
    exact elEntries_perm hc n filter a4.pairs.1 a5.pairs.1 hm'

theorem elementwise_align {ctx : TPCtx K} {n : IrNorm} {filter : Option (List Irrep)} {x1 x2 y : IArr K}
    (h : elementwise ctx n filter x1 x2 = .ok y) : x1.irreps.numIrreps = x2.irreps.numIrreps ∧
      ∃ r, alignTwo x1.irreps x2.irreps = .ok r := by
  unfold elementwise at h
  split at h
  · simp at h
  · rename_i hn
    refine ⟨by simpa using hn, ?_⟩
    cases hr : alignTwo x1.irreps x2.irreps with
    | ok r => exact ⟨r, rfl⟩
    | error e =>
      unfold alignArrays at h
      rw [hr] at h
      cases h

theorem elEntries_T {ctx : TPCtx K} (hc : CgOk ctx) (hD : FLin.LinAct D) (hI : Intertwine ctx D) (n : IrNorm)
    (filter : Option (List Irrep)) {P1 P2 : List (MulIrrep × Chunk K)} (h1 : Shaped P1) (h2 : Shaped P2) :
    elEntries ctx n filter (P1.map (T D)) (P2.map (T D)) = (elEntries ctx n filter P1 P2).map (T D) := by
  unfold elEntries
  have ht : ((P1.map (T D)).zip (P2.map (T D))).flatMap (fun pq => (irsOut filter pq.1.1.ir pq.2.1.ir).map fun ir => (pq, ir)) =
      ((P1.zip P2).flatMap fun pq => (irsOut filter pq.1.1.ir pq.2.1.ir).map fun ir => (pq, ir)).map
        fun t => ((T D t.1.1, T D t.1.2), t.2) := by
    simp only [List.zip_map, List.flatMap_map, List.map_flatMap, List.map_map]
    rfl
  rw [ht, List.map_map, List.map_map]
  apply List.map_congr_left
  intro t ht
  simp only [List.mem_flatMap, List.mem_map] at ht
  obtain ⟨pq, hpq, ir, hir, rfl⟩ := ht
  exact pathVal_T zip_natural (h1 _ (List.of_mem_zip hpq).1) (h2 _ (List.of_mem_zip hpq).2)
    fun a b ha hb => normC_intertwine hc hD hI n (List.mem_of_mem_filter hir) ha hb

theorem tr_elementwise {ctx : TPCtx K} (hc : CgOk ctx) (hD : FLin.LinAct D) (hI : Intertwine ctx D) {n : IrNorm}
    (hn : n ≠ .other) (filter : Option (List Irrep)) {x1 x1' x2 x2' y : IArr K}
    (t1 : Tr D x1 x1') (t2 : Tr D x2 x2') (hy : elementwise ctx n filter x1 x2 = .ok y) :
    ∃ y', elementwise ctx n filter x1' x2' = .ok y' ∧ Tr D y y' := by
  obtain ⟨hnum, r, hr⟩ := elementwise_align hy
  obtain ⟨u, v, w, a1, a2, a3, a4, a5, a6, a7, a8, a9, a10, -⟩ := elementwise_spec hc hn filter t1.inv t2.inv hnum hr
  obtain ⟨u', v', w', b1, b2, b3, b4, b5, b6, b7, b8, b9, b10, -⟩ :=
    elementwise_spec hc hn filter t1.inv' t2.inv' (by rw [t1.irreps, t2.irreps]; exact hnum)
      (r := r) (by rw [t1.irreps, t2.irreps]; exact hr)
  rw [hy] at a8; cases a8
  refine ⟨w', b8, a9, b9, ?_⟩
  obtain ⟨c, c1, c2⟩ := tr_rechunk hD.toAct t1 a6
  rw [b6] at c1; cases c1
  obtain ⟨d, d1, d2⟩ := tr_rechunk hD.toAct t2 a7
  rw [b7] at d1; cases d1
  rw [b10, a10, c2.pairs, d2.pairs, elEntries_T hc hD hI n filter a2.pairs.1 a3.pairs.1]

/-! ### tensor_square -/

theorem pairsOf_length {β : Type} (l : List β) : (pairsOf l).length = l.length * (l.length - 1) / 2 := by
  have h : ∀ l : List β, 2 * (pairsOf l).length = l.length * (l.length - 1) := by
    intro l
    induction l with
    | nil => rfl
    | cons a l ih =>
      simp only [pairsOf, List.length_append, List.length_map, List.length_cons, Nat.mul_add, ih]
      cases l with
      | nil => simp
      | cons b l =>
        simp only [List.length_cons, Nat.add_sub_cancel]
        ring
  have := h l
  omega

theorem pairsOf_map {β γ : Type} (f : β → γ) (l : List β) : pairsOf (l.map f) = (pairsOf l).map fun q => (f q.1, f q.2) := by
  induction l with
  | nil => rfl
  | cons a l ih => simp [pairsOf, ih, Function.comp_def]

theorem mem_pairsOf {β : Type} {l : List β} {q : β × β} (h : q ∈ pairsOf l) : q.1 ∈ l ∧ q.2 ∈ l := by
  induction l with
  | nil => simp [pairsOf] at h
  | cons a l ih =>
    simp only [pairsOf, List.mem_append, List.mem_map] at h
    rcases h with ⟨b, hb, rfl⟩ | h
    · exact ⟨by simp, by simp [hb]⟩
    · exact ⟨by simp [(ih h).1], by simp [(ih h).2]⟩

/-- Every entry of `tensor_square` is a path. -/
theorem squareStep_shaped {ctx : TPCtx K} (hc : CgOk ctx) (n : IrNorm) (ni : Bool) {q1 q2 : (MulIrrep × Chunk K) × Nat}
    (h1 : shapeOk q1.1.1 q1.1.2 = true) (h2 : shapeOk q2.1.1 q2.1.2 = true) (ir : Irrep) :
    Shaped (squareStep ctx n ni q1 q2 ir) := by
  obtain ⟨⟨m1, c1⟩, i1⟩ := q1
  obtain ⟨⟨m2, c2⟩, i2⟩ := q2
  intro p hp
  unfold squareStep at hp
  simp only at hp h1 h2
  split at hp
  · rw [List.mem_singleton] at hp
    subst hp
    exact pathVal_shape (p1 := (m1, c1)) (p2 := (m2, c2)) (scale_shape (hc _ _ _) _) outer (outer_shape h1 h2)
  · split at hp
    · rcases List.mem_append.mp hp with hp | hp
      · split at hp
        · rw [List.mem_singleton] at hp
          subst hp
          cases c1 with
          | none => rfl
          | some a =>
            rw [shapeOk_some] at h1
            simp only [Option.map_some]
            rw [shapeOk_some]
            exact ⟨by simp [rowsOf, pairsOf_length, h1.1], rowsOf_row (scale_shape (hc _ _ _) _) _⟩
        · simp at hp
      · split at hp
        · rw [List.mem_singleton] at hp
          subst hp
          cases c1 with
          | none => rfl
          | some a =>
            rw [shapeOk_some] at h1
            simp only [Option.map_some]
            rw [shapeOk_some]
            exact ⟨by simp [rowsOf, h1.1], rowsOf_row (scale_shape (hc _ _ _) _) _⟩
        · simp at hp
    · simp at hp

theorem squareEntries_shaped {ctx : TPCtx K} (hc : CgOk ctx) (n : IrNorm) (ni : Bool) {P : List (MulIrrep × Chunk K)}
    (h : Shaped P) : Shaped (squareEntries ctx n ni P) := by
  intro p hp
  unfold squareEntries at hp
  simp only [List.mem_flatMap] at hp
  obtain ⟨q1, hq1, q2, hq2, ir, -, hp⟩ := hp
  have m1 : q1.1 ∈ P := (List.mem_zipIdx' hq1).2 ▸ List.getElem_mem _
  have m2 : q2.1 ∈ P := (List.mem_zipIdx' hq2).2 ▸ List.getElem_mem _
  exact squareStep_shaped hc n ni (h _ m1) (h _ m2) ir p hp

theorem squareStep_T {ctx : TPCtx K} (hc : CgOk ctx) (hD : FLin.LinAct D) (hI : Intertwine ctx D) (n : IrNorm) (ni : Bool)
    {q1 q2 : (MulIrrep × Chunk K) × Nat} (h1 : shapeOk q1.1.1 q1.1.2 = true) (h2 : shapeOk q2.1.1 q2.1.2 = true)
    (he : q1.2 = q2.2 → q1 = q2) {ir : Irrep} (hir : ir ∈ q1.1.1.ir.mul q2.1.1.ir) :
    squareStep ctx n ni (T D q1.1, q1.2) (T D q2.1, q2.2) ir = (squareStep ctx n ni q1 q2 ir).map (T D) := by
  unfold squareStep
  simp only
  split
  · have := pathVal_T (D := D) outer_natural (mul := q1.1.1.mul * q2.1.1.mul) (p1 := q1.1) (p2 := q2.1) (ir := ir)
      (C := scaleCg (ctx.sqrt (alphaOff n ni q1.1.1.ir q2.1.1.ir ir)) (ctx.cg q1.1.1.ir.l q2.1.1.ir.l ir.l)) h1 h2
      fun a b ha hb => scale_intertwine hc hD hI _ hir ha hb
    rw [List.map_singleton]
    exact congrArg (fun z => [z]) this
  · split
    · rename_i hq
      have hq' := he hq
      subst hq'
      obtain ⟨⟨m1, c1⟩, i1⟩ := q1
      rw [List.map_append]
      cases c1 with
      | none =>
        congr 1
        · show (if m1.mul > 1 then _ else _) = _
          by_cases h : m1.mul > 1
          · simp only [T, actRows, h, if_true]; rfl
          · simp only [T, h, if_false]; rfl
        · by_cases h : ir.l % 2 = 0
          · simp only [T, actRows, h, if_true]; rfl
          · simp only [T, h, if_false]; rfl
      | some a =>
        rw [shapeOk_some] at h1
        congr 1
        · show (if m1.mul > 1 then _ else _) = _
          by_cases h : m1.mul > 1
          · simp only [T, actRows, h, if_true, Option.map_some, List.map_cons, List.map_nil, pairsOf_map]
            rw [rowsOf_D (fun a b ha hb => scale_intertwine hc hD hI _ hir ha hb) _
              fun q hq => ⟨h1.2 _ (mem_pairsOf hq).1, h1.2 _ (mem_pairsOf hq).2⟩]
          · simp only [T, h, if_false]; rfl
        · by_cases h : ir.l % 2 = 0
          · simp only [T, actRows, h, if_true, Option.map_some, List.map_cons, List.map_nil, List.map_map]
            have e : (a.map ((fun r : List K => (r, r)) ∘ D m1.ir)) =
                (a.map fun r => (r, r)).map fun q => (D m1.ir q.1, D m1.ir q.2) := by rw [List.map_map]; rfl
            rw [e, rowsOf_D (fun a b ha hb => scale_intertwine hc hD hI _ hir ha hb) _ (by
              intro q hq
              obtain ⟨r, hr, rfl⟩ := List.mem_map.mp hq
              exact ⟨h1.2 _ hr, h1.2 _ hr⟩)]
          · simp only [T, h, if_false]; rfl
    · rfl

theorem squareEntries_T {ctx : TPCtx K} (hc : CgOk ctx) (hD : FLin.LinAct D) (hI : Intertwine ctx D) (n : IrNorm)
    (ni : Bool) {P : List (MulIrrep × Chunk K)} (h : Shaped P) :
    squareEntries ctx n ni (P.map (T D)) = (squareEntries ctx n ni P).map (T D) := by
  unfold squareEntries
  rw [List.zipIdx_map]
  simp only [List.flatMap_map, List.map_flatMap]
  apply List.flatMap_congr
  intro q1 hq1
  apply List.flatMap_congr
  intro q2 hq2
  apply List.flatMap_congr
  intro ir hir
  have e1 := List.mem_zipIdx' hq1
  have e2 := List.mem_zipIdx' hq2
  refine squareStep_T hc hD hI n ni (h _ (e1.2 ▸ List.getElem_mem _)) (h _ (e2.2 ▸ List.getElem_mem _)) ?_ hir
  intro e
  obtain ⟨p1, i1⟩ := q1
  obtain ⟨p2, i2⟩ := q2
  simp only at e e1 e2
  subst e
  rw [e1.2, e2.2]

theorem tensorSquare_spec {ctx : TPCtx K} (hc : CgOk ctx) {n : IrNorm} (hn : n ≠ .other) (ni rg : Bool)
    {x : IArr K} (h : Inv x) :
    ∃ z y, prepare rg x = .ok z ∧ Inv z ∧ finish rg (squareEntries ctx n ni (z.irreps.zip z.chunks)) = .ok y ∧
      tensorSquare ctx n ni rg x = .ok y ∧ Inv y ∧
      y.blocks.Perm ((squareEntries ctx n ni (z.irreps.zip z.chunks)).flatMap blk) := by
  obtain ⟨z, a1, a2, a3⟩ := prepare_spec rg h
  obtain ⟨y, y1, y2, y3, y4, -⟩ := finish_spec rg (squareEntries_shaped hc n ni a2.pairs.1)
  refine ⟨z, y, a1, a2, y1, ?_, y2, y3⟩
  unfold tensorSquare
  rw [a1]
  simp only [bind, Except.bind]
  rw [if_neg hn]; exact y1

theorem tr_tensorSquare {ctx : TPCtx K} (hc : CgOk ctx) (hD : FLin.LinAct D) (hI : Intertwine ctx D) {n : IrNorm}
    (hn : n ≠ .other) (ni rg : Bool) {x x' y : IArr K} (t : Tr D x x') (hy : tensorSquare ctx n ni rg x = .ok y) :
    ∃ y', tensorSquare ctx n ni rg x' = .ok y' ∧ Tr D y y' := by
  obtain ⟨z, w, a1, a2, a3, a4, -⟩ := tensorSquare_spec hc hn ni rg t.inv
  obtain ⟨z', w', b1, b2, b3, b4, -⟩ := tensorSquare_spec hc hn ni rg t.inv'
  rw [hy] at a4; cases a4
  refine ⟨w', b4, ?_⟩
  obtain ⟨u, c, d⟩ := tr_prepare hD.toAct rg t a1
  rw [b1] at c; cases c
  obtain ⟨v, v1, v2⟩ := tr_finish hD.toAct rg (squareEntries_shaped hc n ni a2.pairs.1) a3
  rw [← squareEntries_T hc hD hI n ni a2.pairs.1, ← d.pairs, b3] at v1
  cases v1; exact v2

end TP
end E3nn

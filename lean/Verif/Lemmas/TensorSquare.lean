import Verif.Lemmas.TensorProduct

set_option linter.unusedSectionVars false

namespace E3nn
open IArr

namespace TP

variable {K : Type} [CommRing K]

theorem flatMap_append_perm {β γ : Type} (l : List β) (f g : β → List γ) :
    (l.flatMap fun a => f a ++ g a).Perm (l.flatMap f ++ l.flatMap g) := by
  induction l with
  | nil => simp
  | cons a l ih =>
    simp only [List.flatMap_cons, List.append_assoc]
    refine List.Perm.append_left _ ?_
    refine (List.Perm.append_left _ ih).trans ?_
    rw [← List.append_assoc, ← List.append_assoc]
    exact List.Perm.append_right _ List.perm_append_comm

/-- A double loop over an enumerated list that treats `i < j`, `i = j` differently and ignores
`i > j`. -/
theorem zipIdx_pairs {β γ : Type} (P : List β) (F : β → β → List γ) (G : β → List γ) (k : Nat) :
    ((P.zipIdx k).flatMap fun q1 => (P.zipIdx k).flatMap fun q2 =>
      if q1.2 < q2.2 then F q1.1 q2.1 else if q1.2 = q2.2 then G q1.1 else []).Perm
    ((pairsOf P).flatMap (fun q => F q.1 q.2) ++ P.flatMap G) := by
  induction P generalizing k with
  | nil => simp [pairsOf]
  | cons a P ih =>
    simp only [List.zipIdx_cons, List.flatMap_cons, lt_irrefl, if_true, if_false]
    have h1 : ((P.zipIdx (k + 1)).flatMap fun q2 =>
        if k < q2.2 then F a q2.1 else if k = q2.2 then G a else []) = P.flatMap fun b => F a b := by
      have : ∀ q ∈ P.zipIdx (k + 1), (if k < q.2 then F a q.1 else if k = q.2 then G a else []) = F a q.1 := by
        intro q hq
        rw [if_pos (by have := (List.mem_zipIdx hq).1; omega)]
      rw [List.flatMap_congr this]
      conv => rhs; rw [← List.zipIdx_map_fst (k + 1) P, List.flatMap_map]
    have h2 : ((P.zipIdx (k + 1)).flatMap fun q1 =>
        (if q1.2 < k then F q1.1 a else if q1.2 = k then G q1.1 else []) ++
        (P.zipIdx (k + 1)).flatMap fun q2 => if q1.2 < q2.2 then F q1.1 q2.1 else if q1.2 = q2.2 then G q1.1 else []) =
        (P.zipIdx (k + 1)).flatMap fun q1 => (P.zipIdx (k + 1)).flatMap fun q2 =>
          if q1.2 < q2.2 then F q1.1 q2.1 else if q1.2 = q2.2 then G q1.1 else [] := by
      apply List.flatMap_congr
      intro q hq
      have := (List.mem_zipIdx hq).1
      rw [if_neg (by omega), if_neg (by omega), List.nil_append]
    rw [h1, h2]
    simp only [pairsOf, List.flatMap_append, List.flatMap_map]
    refine (List.Perm.append_left _ (ih (k + 1))).trans ?_
    have e : ∀ (A B C E : List γ), (A ++ B ++ (C ++ E)).Perm (B ++ C ++ (A ++ E)) := by
      intro A B C E
      have := @List.perm_append_comm _ A (B ++ C)
      have h := this.append_right E
      simpa [List.append_assoc] using h
    exact e _ _ _ _

theorem pairsOf_append {β : Type} (l k : List β) :
    (pairsOf (l ++ k)).Perm (pairsOf l ++ (l.flatMap fun a => k.map fun b => (a, b)) ++ pairsOf k) := by
  induction l with
  | nil => simp [pairsOf]
  | cons a l ih =>
    simp only [List.cons_append, pairsOf, List.map_append, List.flatMap_cons]
    refine (List.Perm.append_left _ ih).trans ?_
    have e : ∀ (A B C E F : List (β × β)), (A ++ B ++ (C ++ E ++ F)).Perm (A ++ C ++ (B ++ E) ++ F) := by
      intro A B C E F
      have := (@List.perm_append_comm _ B C).append_right (E ++ F)
      have h := this.append_left A
      simpa [List.append_assoc] using h
    exact e _ _ _ _ _

theorem pairsOf_flatMap {β γ : Type} (P : List β) (f : β → List γ) :
    (pairsOf (P.flatMap f)).Perm
      ((pairsOf P).flatMap (fun q => (f q.1).flatMap fun a => (f q.2).map fun b => (a, b)) ++ P.flatMap fun p => pairsOf (f p)) := by
  induction P with
  | nil => simp [pairsOf]
  | cons p P ih =>
    simp only [List.flatMap_cons, pairsOf, List.flatMap_append, List.flatMap_map]
    refine (pairsOf_append _ _).trans ?_
    have h : ((f p).flatMap fun a => (P.flatMap f).map fun b => (a, b)).Perm
        (P.flatMap fun q => (f p).flatMap fun a => (f q).map fun b => (a, b)) := by
      simp only [List.map_flatMap]
      exact flatMap_comm_perm _ _ _
    refine (List.Perm.append (List.Perm.append_left _ h) ih).trans ?_
    have e : ∀ (A B C E : List (γ × γ)), (A ++ B ++ (C ++ E)).Perm (B ++ C ++ (A ++ E)) := by
      intro A B C E
      have := @List.perm_append_comm _ A (B ++ C)
      have h := this.append_right E
      simpa [List.append_assoc] using h
    exact e _ _ _ _

/-- Pairs of a permuted list, when the function does not see the order of the pair. -/
theorem pairsOf_perm {β γ : Type} {l l' : List β} (h : l.Perm l') (f : β → β → List γ) (hf : ∀ a b, f a b = f b a) :
    ((pairsOf l).flatMap fun q => f q.1 q.2).Perm ((pairsOf l').flatMap fun q => f q.1 q.2) := by
  induction h with
  | nil => exact List.Perm.refl _
  | cons a h ih =>
    simp only [pairsOf, List.flatMap_append, List.flatMap_map]
    exact List.Perm.append (h.flatMap_right _) ih
  | swap a b l =>
    simp only [pairsOf, List.flatMap_append, List.flatMap_map, List.map_cons, List.flatMap_cons]
    rw [hf b a]
    simp only [List.append_assoc]
    refine List.Perm.append_left _ ?_
    rw [← List.append_assoc, ← List.append_assoc]
    exact List.Perm.append_right _ List.perm_append_comm
  | trans _ _ ih1 ih2 => exact ih1.trans ih2

/-- The blocks of a pair `u < v` of copies of one term. -/
theorem blk_pairs {ir : Irrep} {C : List (List (List K))} {p : MulIrrep × Chunk K} {d2 : Nat}
    (hC : Shape3 p.1.ir.dim d2 ir.dim C) (h : shapeOk p.1 p.2 = true) :
    blk ((⟨p.1.mul * (p.1.mul - 1) / 2, ir⟩ : MulIrrep), p.2.map fun x => rowsOf ir.dim C (pairsOf x)) =
      (pairsOf (blk p)).map fun b => (ir, contract ir.dim C b.1.2 b.2.2) := by
  obtain ⟨m, c⟩ := p
  cases c with
  | none =>
    simp only [Option.map_none]
    rw [blk_none]
    symm
    rw [List.eq_replicate_iff]
    refine ⟨by rw [List.length_map, pairsOf_length, blk_length], ?_⟩
    intro b hb
    obtain ⟨q, hq, rfl⟩ := List.mem_map.mp hb
    have := (mem_pairsOf hq).1
    rw [blk_none] at this
    rw [(List.mem_replicate.mp this).2, contract_zero_left hC]
  | some x =>
    have hs : shapeOk (⟨m.mul * (m.mul - 1) / 2, ir⟩ : MulIrrep) (some (rowsOf ir.dim C (pairsOf x))) = true := by
      rw [shapeOk_some] at *
      exact ⟨by simp [rowsOf, pairsOf_length, h.1], rowsOf_row hC _⟩
    simp only [Option.map_some]
    rw [blk_some hs, blk_some h, pairsOf_map]
    simp [rowsOf, Function.comp_def]

/-- The blocks of the diagonal of one term. -/
theorem blk_diag {ir : Irrep} {C : List (List (List K))} {p : MulIrrep × Chunk K} {d2 : Nat}
    (hC : Shape3 p.1.ir.dim d2 ir.dim C) (h : shapeOk p.1 p.2 = true) :
    blk ((⟨p.1.mul, ir⟩ : MulIrrep), p.2.map fun x => rowsOf ir.dim C (x.map fun r => (r, r))) =
      (blk p).map fun b => (ir, contract ir.dim C b.2 b.2) := by
  obtain ⟨m, c⟩ := p
  cases c with
  | none =>
    simp only [Option.map_none]
    rw [blk_none, blk_none, List.map_replicate, contract_zero_left hC]
  | some x =>
    have hs : shapeOk (⟨m.mul, ir⟩ : MulIrrep) (some (rowsOf ir.dim C (x.map fun r => (r, r)))) = true := by
      rw [shapeOk_some] at *
      exact ⟨by simp [rowsOf, h.1], rowsOf_row hC _⟩
    simp only [Option.map_some]
    rw [blk_some hs, blk_some h]
    simp [rowsOf, Function.comp_def]

def offC (ctx : TPCtx K) (n : IrNorm) (ni : Bool) (ir1 ir2 ir : Irrep) : List (List (List K)) :=
  scaleCg (ctx.sqrt (alphaOff n ni ir1 ir2 ir)) (ctx.cg ir1.l ir2.l ir.l)

def diagC (ctx : TPCtx K) (n : IrNorm) (ni : Bool) (ir1 ir : Irrep) : List (List (List K)) :=
  scaleCg (ctx.sqrt (alphaDiag n ni ir1 ir1 ir)) (ctx.cg ir1.l ir1.l ir.l)

/-- The symmetric products of a list of blocks. -/
def squareProducts (ctx : TPCtx K) (n : IrNorm) (ni : Bool) (B : List (Irrep × List K)) : List (Irrep × List K) :=
  ((pairsOf B).flatMap fun b => (b.1.1.mul b.2.1).map fun ir =>
    (ir, contract ir.dim (offC ctx n ni b.1.1 b.2.1 ir) b.1.2 b.2.2)) ++
  B.flatMap fun b => ((b.1.mul b.1).filter fun ir => ir.l % 2 = 0).map fun ir =>
    (ir, contract ir.dim (diagC ctx n ni b.1 ir) b.2 b.2)

theorem squareEntries_perm {ctx : TPCtx K} (hc : CgOk ctx) (n : IrNorm) (ni : Bool) {P : List (MulIrrep × Chunk K)}
    (h : Shaped P) :
    ((squareEntries ctx n ni P).flatMap blk).Perm (squareProducts ctx n ni (P.flatMap blk)) := by
  -- the loops as a function of the pair of terms
  let F : MulIrrep × Chunk K → MulIrrep × Chunk K → List (Irrep × List K) := fun p1 p2 =>
    (p1.1.ir.mul p2.1.ir).flatMap fun ir => (blk p1).flatMap fun b1 => (blk p2).map fun b2 =>
      (ir, contract ir.dim (offC ctx n ni p1.1.ir p2.1.ir ir) b1.2 b2.2)
  let G : MulIrrep × Chunk K → List (Irrep × List K) := fun p =>
    (p.1.ir.mul p.1.ir).flatMap fun ir =>
      ((pairsOf (blk p)).map fun b => (ir, contract ir.dim (offC ctx n ni p.1.ir p.1.ir ir) b.1.2 b.2.2)) ++
      if ir.l % 2 = 0 then (blk p).map fun b => (ir, contract ir.dim (diagC ctx n ni p.1.ir ir) b.2 b.2) else []
  have hloop : (squareEntries ctx n ni P).flatMap blk =
      P.zipIdx.flatMap fun q1 => P.zipIdx.flatMap fun q2 =>
        if q1.2 < q2.2 then F q1.1 q2.1 else if q1.2 = q2.2 then G q1.1 else [] := by
    unfold squareEntries
    simp only [List.flatMap_assoc]
    apply List.flatMap_congr
    intro q1 hq1
    apply List.flatMap_congr
    intro q2 hq2
    have e1 := List.mem_zipIdx' hq1
    have e2 := List.mem_zipIdx' hq2
    have s1 := h _ (e1.2 ▸ List.getElem_mem _ : q1.1 ∈ P)
    have s2 := h _ (e2.2 ▸ List.getElem_mem _ : q2.1 ∈ P)
    split
    · rename_i hlt
      apply List.flatMap_congr
      intro ir _
      unfold squareStep
      simp only [hlt, if_true, List.flatMap_cons, List.flatMap_nil, List.append_nil]
      exact blk_outer (C := offC ctx n ni q1.1.1.ir q2.1.1.ir ir) (scale_shape (hc _ _ _) _) s1 s2
    · rename_i hlt
      split
      · rename_i heq
        have : q1.1 = q2.1 := by
          obtain ⟨p1, i1⟩ := q1
          obtain ⟨p2, i2⟩ := q2
          simp only at heq e1 e2
          subst heq
          simp only
          rw [e1.2, e2.2]
        rw [show q2.1.1.ir = q1.1.1.ir by rw [this]]
        apply List.flatMap_congr
        intro ir _
        unfold squareStep
        simp only [← this, heq, lt_irrefl, if_true, if_false, List.flatMap_append]
        congr 1
        · split
          · simp only [List.flatMap_cons, List.flatMap_nil, List.append_nil]
            exact blk_pairs (C := offC ctx n ni q1.1.1.ir q1.1.1.ir ir) (scale_shape (hc _ _ _) _) s1
          · rename_i hm
            have : (pairsOf (blk q1.1)).length = 0 := by
              rw [pairsOf_length, blk_length]
              have : q1.1.1.mul = 0 ∨ q1.1.1.mul = 1 := by omega
              rcases this with h | h <;> rw [h]
            rw [List.length_eq_zero_iff.mp this]; rfl
        · split
          · simp only [List.flatMap_cons, List.flatMap_nil, List.append_nil]
            exact blk_diag (C := diagC ctx n ni q1.1.1.ir ir) (scale_shape (hc _ _ _) _) s1
          · rfl
      · rename_i hne
        have : ∀ ir, squareStep ctx n ni q1 q2 ir = [] := by
          intro ir; unfold squareStep; simp only [hlt, hne, if_false]
        simp [this]
  rw [hloop]
  refine (zipIdx_pairs P F G 0).trans ?_
  unfold squareProducts
  have hF : ∀ p1 p2, (F p1 p2).Perm (((blk p1).flatMap fun a => (blk p2).map fun b => (a, b)).flatMap fun b =>
      (b.1.1.mul b.2.1).map fun ir => (ir, contract ir.dim (offC ctx n ni b.1.1 b.2.1 ir) b.1.2 b.2.2)) := by
    intro p1 p2
    simp only [F, List.flatMap_assoc, List.flatMap_map]
    refine (flatMap_comm_perm _ _ _).trans (flatMap_perm_congr _ fun b1 hb1 => ?_)
    have e : (fun ir => (blk p2).map fun b2 => (ir, contract ir.dim (offC ctx n ni p1.1.ir p2.1.ir ir) b1.2 b2.2)) =
        fun ir => (blk p2).flatMap fun b2 => [(ir, contract ir.dim (offC ctx n ni p1.1.ir p2.1.ir ir) b1.2 b2.2)] := by
      funext ir; rw [List.map_eq_flatMap]
    rw [e]
    refine (flatMap_comm_perm _ _ _).trans (flatMap_perm_congr _ fun b2 hb2 => ?_)
    rw [blk_fst _ _ hb1, blk_fst _ _ hb2, List.map_eq_flatMap]
  have hG : ∀ p, (G p).Perm (((pairsOf (blk p)).flatMap fun b => (b.1.1.mul b.2.1).map fun ir =>
      (ir, contract ir.dim (offC ctx n ni b.1.1 b.2.1 ir) b.1.2 b.2.2)) ++
      (blk p).flatMap fun b => ((b.1.mul b.1).filter fun ir => ir.l % 2 = 0).map fun ir =>
        (ir, contract ir.dim (diagC ctx n ni b.1 ir) b.2 b.2)) := by
    intro p
    refine (flatMap_append_perm _ _ _).trans (List.Perm.append ?_ ?_)
    · have e : (fun ir => (pairsOf (blk p)).map fun b => (ir, contract ir.dim (offC ctx n ni p.1.ir p.1.ir ir) b.1.2 b.2.2)) =
          fun ir => (pairsOf (blk p)).flatMap fun b => [(ir, contract ir.dim (offC ctx n ni p.1.ir p.1.ir ir) b.1.2 b.2.2)] := by
        funext ir; rw [List.map_eq_flatMap]
      rw [e]
      refine (flatMap_comm_perm _ _ _).trans (flatMap_perm_congr _ fun b hb => ?_)
      rw [blk_fst _ _ (mem_pairsOf hb).1, blk_fst _ _ (mem_pairsOf hb).2, List.map_eq_flatMap]
    · have e : (fun ir : Irrep => if ir.l % 2 = 0 then (blk p).map fun b => (ir, contract ir.dim (diagC ctx n ni p.1.ir ir) b.2 b.2) else []) =
          fun ir => (blk p).flatMap fun b => if ir.l % 2 = 0 then [(ir, contract ir.dim (diagC ctx n ni p.1.ir ir) b.2 b.2)] else [] := by
        funext ir; split
        · rw [List.map_eq_flatMap]
        · simp
      rw [e]
      refine (flatMap_comm_perm _ _ _).trans (flatMap_perm_congr _ fun b hb => ?_)
      rw [blk_fst _ _ hb]
      generalize p.1.ir.mul p.1.ir = L
      have : (L.flatMap fun ir => if ir.l % 2 = 0 then [(ir, contract ir.dim (diagC ctx n ni p.1.ir ir) b.2 b.2)] else []) =
          (L.filter fun ir => ir.l % 2 = 0).map fun ir => (ir, contract ir.dim (diagC ctx n ni p.1.ir ir) b.2 b.2) := by
        induction L with
        | nil => rfl
        | cons a L ih =>
          rw [List.flatMap_cons, ih, List.filter_cons]
          by_cases h : a.l % 2 = 0 <;> simp [h]
      rw [this]
  refine (List.Perm.append (flatMap_perm_congr _ fun q _ => hF q.1 q.2) (flatMap_perm_congr _ fun p _ => hG p)).trans ?_
  refine (List.Perm.append_left _ (flatMap_append_perm _ _ _)).trans ?_
  rw [← List.append_assoc]
  refine List.Perm.append ?_ ?_
  · refine List.Perm.symm (((pairsOf_flatMap P blk).flatMap_right _).trans ?_)
    rw [List.flatMap_append, List.flatMap_assoc, List.flatMap_assoc]
  · rw [List.flatMap_assoc]

end TP
end E3nn

import Verif.Lemmas.RTPOptProd
import Verif.Lemmas.RTPTotal
import Verif.Props.C95
import Mathlib.Data.List.ReduceOption

/-! # The optimized algorithm -/

namespace E3nn.RTP

open Finset E3nn.IArr E3nn.PermRepr E3nn.Wig E3nn.Perm E3nn.LinAlg

theorem mapM_getD {α β : Type} {f : α → Except PyErr β} : ∀ {l : List α} {r : List β}, l.mapM f = .ok r → r.length = l.length ∧ ∀ i (h : i < l.length) (z : β), f l[i] = .ok (r.getD i z)
  | [], r, h => by
    simp only [List.mapM_nil, pure, Except.pure, Except.ok.injEq] at h
    subst h
    simp
  | a :: l, r, h => by
    rw [List.mapM_cons] at h
    cases ha : f a with
    | error e => rw [ha] at h; cases h
    | ok b =>
      cases hl : l.mapM f with
      | error e => rw [ha, hl] at h; cases h
      | ok r' =>
        rw [ha, hl] at h
        cases h
        obtain ⟨h1, h2⟩ := mapM_getD hl
        refine ⟨by simp [h1], fun i hi z => ?_⟩
        cases i with
        | zero => simpa using ha
        | succ i => simpa using h2 i (by simpa using hi) z

theorem mapM_exists {α β : Type} {f : α → Except PyErr β} : ∀ {l : List α}, (∀ a ∈ l, ∃ b, f a = .ok b) → ∃ r, l.mapM f = .ok r
  | [], _ => ⟨[], rfl⟩
  | a :: l, h => by
    obtain ⟨b, hb⟩ := h a (by simp)
    obtain ⟨r, hr⟩ := mapM_exists (l := l) fun a ha => h a (by simp [ha])
    exact ⟨b :: r, by rw [List.mapM_cons, hb, hr]; rfl⟩

theorem ofArray_blocks {x : Irreps} {a : List Ten} (h : a.length = dimOf (expand x)) : ∃ y, IArr.ofArray x a = .ok y ∧ Inv y ∧ y.irreps = x ∧ y.array = a ∧ y.blocks = blocksOf (expand x) a := by
  obtain ⟨y, y1, y2, y3, y4, -⟩ := (C12_from_array x a).1 h
  refine ⟨y, y1, y2.inv, y3, y4, ?_⟩
  unfold IArr.blocks
  rw [y3, y4]

theorem inv_len {x : IArr Ten} (h : Inv x) : x.array.length = dimOf (expand x.irreps) := by
  rw [h.length_array, Irreps.dim_eq_dimOf_expand]

theorem expand_of_dim_zero {x : Irreps} (h : x.dim = 0) : expand x = [] := by
  rw [Irreps.dim_eq_dimOf_expand] at h
  cases he : expand x with
  | nil => rfl
  | cons ir s => rw [he, dimOf_cons] at h; unfold Irrep.dim at h; omega

/-- The columns of the blocks mapped. -/
def mapBlocks (φ : Ten → Ten) (B : List (Irrep × List Ten)) : List (Irrep × List Ten) := B.map fun b => (b.1, b.2.map φ)

theorem finish_blocks (p : IArr Ten) (hp : Inv p) (φ : Ten → Ten) : ∃ o : Option (IArr Ten),
    (if p.irreps.dim = 0 then (Except.ok none : Except PyErr (Option (IArr Ten))) else (IArr.ofArray p.irreps (p.array.map φ)).map some) = .ok o ∧
      (∀ z ∈ o, Inv z) ∧ o.toList.flatMap IArr.blocks = mapBlocks φ p.blocks := by
  by_cases h : p.irreps.dim = 0
  · rw [if_pos h]
    refine ⟨none, rfl, by simp, ?_⟩
    unfold mapBlocks IArr.blocks
    rw [expand_of_dim_zero h]
    rfl
  · rw [if_neg h]
    obtain ⟨y, y1, y2, y3, y4, y5⟩ := ofArray_blocks (x := p.irreps) (a := p.array.map φ) (by rw [List.length_map]; exact inv_len hp)
    refine ⟨some y, by rw [y1]; rfl, by simp [y2], ?_⟩
    simp only [Option.toList_some, List.flatMap_cons, List.flatMap_nil, List.append_nil]
    rw [y5, blocksOf_map]
    rfl

/-- The end of the algorithm: concatenation, sorting and simplification only reorder the blocks. -/
theorem finish_all {zs : List (IArr Ten)} (hne : zs ≠ []) (hz : ∀ z ∈ zs, Inv z) :
    ∃ y, (do
      let basis ← IArr.concatenate zs
      let basis ← basis.sort
      IArr.ofArray basis.irreps.simplify basis.array) = (.ok y : Except PyErr (IArr Ten)) ∧ Inv y ∧ y.blocks.Perm (zs.flatMap IArr.blocks) := by
  obtain ⟨b, b1, b2, b3, b4, -⟩ := concatenate_spec hne hz
  obtain ⟨s, s1, s2, s3, -⟩ := C17_sort b b2.coherent
  obtain ⟨y, y1, y2, y3, y4, y5⟩ := ofArray_blocks (x := s.irreps.simplify) (a := s.array) (by rw [Irreps.expand_simplify]; exact inv_len s2.inv)
  refine ⟨y, by simp only [b1, s1, y1, bind, Except.bind], y2, ?_⟩
  have e1 : y.blocks = s.blocks := by rw [y5, Irreps.expand_simplify]; rfl
  have e2 : b.blocks = zs.flatMap IArr.blocks := by
    rw [← blocksOf_concat zs hz]
    unfold IArr.blocks
    rw [b3, b4]
  rw [e1, ← e2]
  exact s3

/-- Everything after the powers: `P'` is what is known about the products. -/
theorem tail_spec {S : Irreps} {d : ℕ} (hS : 0 < S.length) (hd : d ≠ 0) {pows : List (List (IArr Ten))} {keep : Option (List Irrep)} {P P' : List ℕ → List ℕ → IArr Ten → Prop}
    (hT : ∀ p ∈ tuplesWithSum S.length d, ∀ j n o, Blk (reps 0 p) o n j → n ≠ 0 → j < S.length → n ≤ d → ∃ t', ((pows.getD j []).getD (n - 1) ⟨[], [], none, none⟩).mapCols (place (List.range' o n)) = .ok t' ∧
      P (reps 0 p) (List.range' o n) t')
    (hP : ∀ c f g a b, (∀ i ∈ f, i ∉ g) → P c f a → P c g b → ∃ y, reduceBasisProduct a b none = .ok y ∧ P c (f ++ g) y)
    (hK : ∀ c f g a b, (∀ i ∈ f, i ∉ g) → P c f a → P c g b → ∃ y, reduceBasisProduct a b keep = .ok y ∧ P' c (f ++ g) y)
    (hF : ∀ c f a, P c f a → ∃ y, a.filter (keep.map .irs) none none = .ok y ∧ P' c f y) (hI : ∀ c f a, P' c f a → Inv a) :
    ∃ Y : List ℕ → IArr Ten, (∀ p ∈ tuplesWithSum S.length d, P' (reps 0 p) (List.range d) (Y p)) ∧
      ∃ ys, (tuplesWithSum S.length d).mapM (term S pows keep) = .ok ys ∧ (∀ z ∈ ys.reduceOption, Inv z) ∧
        ys.reduceOption.flatMap IArr.blocks = (tuplesWithSum S.length d).flatMap fun p => mapBlocks (symmetrize S (reps 0 p)) (Y p).blocks := by
  have key : ∀ p, ∃ y o, p ∈ tuplesWithSum S.length d → P' (reps 0 p) (List.range d) y ∧ term S pows keep p = .ok o ∧ (∀ z ∈ o, Inv z) ∧
      o.toList.flatMap IArr.blocks = mapBlocks (symmetrize S (reps 0 p)) y.blocks := by
    intro p
    by_cases hp : p ∈ tuplesWithSum S.length d
    · obtain ⟨l1, l2⟩ := (mem_tuples _ _ _ hS).mp hp
      obtain ⟨ts, y, t1, t2, t3⟩ := product_spec (ps := p) (by rw [l2]; exact hd) (P := P (reps 0 p)) (P' := P' (reps 0 p))
        (fun j n => (pows.getD j []).getD (n - 1) ⟨[], [], none, none⟩)
        (fun j n o hb hn hj => hT p hp j n o hb hn (by omega) (by have := hb.le; rw [reps_length] at this; omega)) (hP _) (hK _) (hF _)
      rw [l2] at t3
      obtain ⟨o, o1, o2, o3⟩ := finish_blocks y (hI _ _ _ t3) (symmetrize S (reps 0 p))
      refine ⟨y, o, fun _ => ⟨t3, ?_, o2, o3⟩⟩
      unfold term
      simp only [t1, t2, bind, Except.bind, repeatIndices_eq]
      rw [← o1]
      split
      · rfl
      · cases IArr.ofArray y.irreps (y.array.map (symmetrize S (reps 0 p))) <;> rfl
    · exact ⟨⟨[], [], none, none⟩, none, fun h => absurd h hp⟩
  choose Y O hYO using key
  refine ⟨Y, fun p hp => (hYO p hp).1, (tuplesWithSum S.length d).map O, E3nn.mapM_ok fun p hp => (hYO p hp).2.1, ?_, ?_⟩
  · intro z hz
    rw [List.reduceOption_mem_iff] at hz
    obtain ⟨p, hp, e⟩ := List.mem_map.mp hz
    exact (hYO p hp).2.2.1 z (by rw [e]; rfl)
  · have : ∀ l : List (List ℕ), (∀ p ∈ l, p ∈ tuplesWithSum S.length d) → (l.map O).reduceOption.flatMap IArr.blocks = l.flatMap fun p => mapBlocks (symmetrize S (reps 0 p)) (Y p).blocks := by
      intro l hl
      induction l with
      | nil => rfl
      | cons p l ih =>
        have h := (hYO p (hl p (by simp))).2.2.2
        rw [List.flatMap_cons, ← h, ← ih fun q hq => hl q (by simp [hq]), List.map_cons]
        cases O p with
        | none => rw [List.reduceOption_cons_of_none]; simp
        | some z => rw [List.reduceOption_cons_of_some]; simp
    exact this _ fun p hp => hp

theorem singles_mem {x : Irreps} {mi : MulIrrep} (h : mi ∈ singles x) : mi.mul = 1 := by
  rw [singles_eq] at h
  obtain ⟨ir, -, rfl⟩ := List.mem_map.mp h
  rfl

theorem getD_singles {x : Irreps} {j : ℕ} (hj : j < (singles x).length) : (singles x).getD j ⟨0, ⟨0, .e⟩⟩ ∈ singles x := by
  rw [List.getD_eq_getElem _ _ hj]; exact List.getElem_mem hj

theorem tail_good {x : Irreps} {d : ℕ} {irr : List Irreps} (hS : 0 < (singles x).length) (hirr : ∀ m < d, irr.getD m [] = x) {Y : List ℕ → IArr Ten}
    (hY : ∀ p ∈ tuplesWithSum (singles x).length d, ∀ r ∈ (Y p).blocks, BGood (irrc (singles x) (reps 0 p)) (List.range d) r) {z : IArr Ten} (z2 : Inv z)
    (z3 : z.blocks.Perm ((tuplesWithSum (singles x).length d).flatMap fun p => mapBlocks (symmetrize (singles x) (reps 0 p)) (Y p).blocks)) : Good irr (List.range d) z := by
  refine ⟨z2, fun q hq => ?_⟩
  have := z3.mem_iff.mp hq
  obtain ⟨p, hp, hq⟩ := List.mem_flatMap.mp this
  obtain ⟨r, hr, rfl⟩ := List.mem_map.mp hq
  obtain ⟨l1, l2⟩ := (mem_tuples _ _ _ hS).mp hp
  have hlen : (reps 0 p).length = d := by rw [reps_length]; exact l2
  have := symmetrize_good (x := x) (irr := irr) (c := reps 0 p) (p := r) (by rw [hlen]; exact hirr) (fun k hk => ?_) (by rw [hlen]; exact hY p hp r hr)
  · rwa [hlen] at this
  · rw [List.getD_eq_getElem _ _ hk]
    have := (reps_ge (List.getElem_mem hk)).2
    omega

/-- Whatever `keep_ir`: what the optimized algorithm returns transforms as its irreps say. -/
theorem optimizedWith_good {pow : Power} {x : Irreps} {d : ℕ} (hS : 0 < (singles x).length) (hd : d ≠ 0)
    (hpow : ∀ mi ∈ singles x, ∀ n, n ≠ 0 → ∀ keep t, pow mi n keep = .ok t → Good (List.replicate n [mi]) (List.range n) t) {keep : Option (List Irrep)} {y : IArr Ten} {irr : List Irreps}
    (hirr : ∀ m < d, irr.getD m [] = x) (h : optimizedWith pow x d keep = .ok y) : Good irr (List.range d) y := by
  unfold optimizedWith at h
  simp only [bind, Except.bind] at h
  split at h
  · cases h
  rename_i pows hpows
  obtain ⟨hl, hg⟩ := mapM_getD hpows
  have hT : ∀ j n, n ≠ 0 → j < (singles x).length → n ≤ d →
      Good (List.replicate n [(singles x).getD j ⟨0, ⟨0, .e⟩⟩]) (List.range n) ((pows.getD j []).getD (n - 1) ⟨[], [], none, none⟩) := by
    intro j n hn hj hnd
    have h1 := hg j hj []
    obtain ⟨-, h2⟩ := mapM_getD h1
    have h3 := h2 (n - 1) (by rw [List.length_range]; omega) ⟨[], [], none, none⟩
    rw [List.getElem_range, show n - 1 + 1 = n by omega] at h3
    have := hpow _ (List.getElem_mem hj) n hn _ _ h3
    rwa [← List.getD_eq_getElem _ ⟨0, ⟨0, .e⟩⟩ hj] at this
  obtain ⟨Y, hY, ys, h1, h2, h3⟩ := tail_spec (S := singles x) (keep := keep) (P := fun c f a => Good (irrc (singles x) c) f a) (P' := fun c f a => Good (irrc (singles x) c) f a) hS hd
    (pows := pows) (fun p hp j n o hb hn hj hnd => by obtain ⟨t', t1, t2, -⟩ := place_PG hb (hT j n hn hj hnd); exact ⟨t', t1, t2⟩)
    (fun c f g a b hfg ha hb => PG.product hfg ha hb none) (fun c f g a b hfg ha hb => PG.product hfg ha hb keep)
    (fun c f a ha => by
      cases keep with
      | none => exact ⟨a, rfl, ha⟩
      | some l =>
        obtain ⟨z, z1, z2, z3⟩ := filter_blocks ha.1 l
        exact ⟨z, z1, z2, fun p hp => ha.2 p (by rw [z3] at hp; exact (List.mem_filter.mp hp).1)⟩)
    (fun c f a ha => ha.1)
  simp only [h1] at h
  by_cases hz : ys.reduceOption = []
  · rw [hz] at h
    simp [IArr.concatenate] at h
  · obtain ⟨z, z1, z2, z3⟩ := finish_all hz h2
    simp only [bind, Except.bind] at z1
    rw [z1] at h
    cases h
    rw [h3] at z3
    exact tail_good hS hirr (fun p hp => (hY p hp).2) z2 z3

/-- Without `keep_ir` the optimized algorithm returns an orthonormal basis of the symmetric arrays. -/
theorem optimizedWith_basis {pow : Power} {x : Irreps} {d : ℕ} (hS : 0 < (singles x).length) (hd : d ≠ 0)
    (hpow : ∀ mi ∈ singles x, ∀ n, n ≠ 0 → n ≤ d → ∃ t, pow mi n none = .ok t ∧ PO (List.replicate n [mi]) (symmetricPermRepr n) (List.range n) t) {irr : List Irreps} (hlen : irr.length = d)
    (hirr : ∀ m < d, irr.getD m [] = x) : ∃ y, optimizedWith pow x d none = .ok y ∧ PO irr (symmetricPermRepr d) (List.range d) y := by
  have hrow : ∀ mi ∈ singles x, ∃ r, ((List.range d).mapM fun n => pow mi (n + 1) (tpIrSeq none (tpIrSeqPow ((singles x).map MulIrrep.ir) (d - (n + 1))))) = .ok r := by
    intro mi hmi
    refine mapM_exists fun n hn => ?_
    obtain ⟨t, t1, -⟩ := hpow mi hmi (n + 1) (by omega) (by rw [List.mem_range] at hn; omega)
    exact ⟨t, t1⟩
  obtain ⟨pows, hpows⟩ := mapM_exists hrow
  obtain ⟨hl, hg⟩ := mapM_getD hpows
  have hT : ∀ j n, n ≠ 0 → j < (singles x).length → n ≤ d →
      PO (List.replicate n [(singles x).getD j ⟨0, ⟨0, .e⟩⟩]) (symmetricPermRepr n) (List.range n) ((pows.getD j []).getD (n - 1) ⟨[], [], none, none⟩) := by
    intro j n hn hj hnd
    have h1 := hg j hj []
    obtain ⟨-, h2⟩ := mapM_getD h1
    have h3 := h2 (n - 1) (by rw [List.length_range]; omega) ⟨[], [], none, none⟩
    rw [List.getElem_range, show n - 1 + 1 = n by omega] at h3
    obtain ⟨t, t1, t2⟩ := hpow _ (List.getElem_mem hj) n hn hnd
    have e : tpIrSeq none (tpIrSeqPow ((singles x).map MulIrrep.ir) (d - n)) = none := rfl
    rw [e, t1] at h3
    rw [List.getD_eq_getElem (singles x) _ hj, ← Except.ok.inj h3]
    exact t2
  have hgroup : ∀ c, IsSGroup (irrc (singles x) c).length (groupC c) := fun c => by rw [irrc_length]; exact groupC_group c
  obtain ⟨Y, hY, ys, h1, h2, h3⟩ := tail_spec (S := singles x) (keep := none) (P := fun c f a => PO (irrc (singles x) c) (groupC c) f a) (P' := fun c f a => PO (irrc (singles x) c) (groupC c) f a) hS hd
    (pows := pows) (fun p hp j n o hb hn hj hnd => place_PO hb (hT j n hn hj hnd))
    (fun c f g a b hfg ha hb => PO.product (hgroup c) (fun q hq => (mem_groupC.mp hq).1.1) hfg ha hb)
    (fun c f g a b hfg ha hb => PO.product (hgroup c) (fun q hq => (mem_groupC.mp hq).1.1) hfg ha hb)
    (fun c f a ha => ⟨a, rfl, ha⟩) (fun c f a ha => ha.good.1)
  have hD : ∀ m < d, axisDim irr m = (singles x).dim := by
    intro m hm
    unfold axisDim
    rw [hirr m hm, dim_singles]
  obtain ⟨o1, o2⟩ := symmetrize_obasis hS hlen hD (fun p => (Y p).blocks.flatMap Prod.snd)
    (fun p hp t ht => by
      obtain ⟨q, hq, hx⟩ := List.mem_flatMap.mp ht
      exact ((hY p hp).good.2 q hq).on t hx)
    (fun p hp => (hY p hp).symm) (fun p hp => (hY p hp).basis)
  have e : ((tuplesWithSum (singles x).length d).flatMap fun p => mapBlocks (symmetrize (singles x) (reps 0 p)) (Y p).blocks).flatMap Prod.snd =
      (tuplesWithSum (singles x).length d).flatMap fun p => ((Y p).blocks.flatMap Prod.snd).map (symmetrize (singles x) (reps 0 p)) := by
    rw [List.flatMap_assoc]
    apply List.flatMap_congr
    intro p _
    unfold mapBlocks
    rw [List.flatMap_map, List.map_flatMap]
  have hne : ys.reduceOption ≠ [] := by
    intro hz
    rw [hz, List.flatMap_nil] at h3
    rw [← h3, List.flatMap_nil] at e
    rw [← e] at o1
    have hpos : 0 < (singles x).dim := by
      rw [dim_singles, Irreps.dim_eq_dimOf_expand]
      rw [singles_eq, List.length_map] at hS
      cases hx : expand x with
      | nil => rw [hx] at hS; simp at hS
      | cons ir s => rw [dimOf_cons]; unfold Irrep.dim; omega
    have := o1.complete 1 (fun q hq _ σ _ => by rw [(mem_symmetricPermRepr.mp hq).1]; simp) (fun _ => 0) (fun i hi => by rw [hD i (by omega)]; exact hpos)
    simp [expansion] at this
  obtain ⟨z, z1, z2, z3⟩ := finish_all hne h2
  have hrun : optimizedWith pow x d none = .ok z := by
    unfold optimizedWith
    simp only [bind, Except.bind]
    rw [hpows]
    simp only
    rw [h1]
    exact z1
  refine ⟨z, hrun, tail_good hS hirr (fun p hp => (hY p hp).good.2) z2 (by rw [← h3]; exact z3), ?_, ?_⟩
  · rw [h3] at z3
    have hp := List.Perm.flatMap_right Prod.snd z3
    rw [e] at hp
    exact o1.perm hp
  · rw [h3] at z3
    have hp := List.Perm.flatMap_right Prod.snd z3
    rw [e] at hp
    intro w hw
    exact (o2 w (hp.mem_iff.mp hw)).2

end E3nn.RTP

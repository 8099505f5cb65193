import Verif.Lemmas.RTPOptSym
import Verif.Props.C94

/-! # The products of the powers of different irreps -/

namespace E3nn.RTP

open Finset E3nn.IArr E3nn.PermRepr E3nn.Wig E3nn.Perm

/-! ### one power, placed on its axes -/

/-- The axes of the irrep `i` are `o, ..., o + n - 1`. -/
structure Blk (c : List ℕ) (o n i : ℕ) : Prop where
  le : o + n ≤ c.length
  iff : ∀ j < c.length, (c.getD j 0 = i ↔ o ≤ j ∧ j < o + n)

theorem range'_getD {o n k : ℕ} (h : k < n) : (List.range' o n).getD k 0 = o + k := by
  rw [List.getD_eq_getElem _ _ (by simpa using h)]
  simp

theorem range'_idxOf {o n k : ℕ} (h : k < n) : (List.range' o n).idxOf (o + k) = k := by
  have h2 : (List.range' o n).Nodup := List.nodup_range'
  have := h2.idxOf_getElem k (by simpa using h)
  simpa using this

theorem range'_pairwise (o n : ℕ) : (List.range' o n).Pairwise (· < ·) := List.pairwise_lt_range'

theorem blk_subrepr {c : List ℕ} {o n i : ℕ} (h : Blk c o n i) {q : SPerm} (hq : q ∈ symmetricPermRepr n) : q ∈ subrepr (List.range' o n) (groupC c) := by
  obtain ⟨h1, h2⟩ := mem_symmetricPermRepr.mp hq
  have hlt : ∀ j ∈ List.range' o n, j < c.length := fun j hj => by have := h.le; rw [List.mem_range'_1] at hj; omega
  rw [mem_subrepr (groupC_group c) hlt (range'_pairwise o n)]
  set F : ℕ → ℕ := fun j => if o ≤ j ∧ j < o + n then o + q.2.getD (j - o) 0 else j with hF
  have hle := h.le
  have hin : ∀ j, o ≤ j ∧ j < o + n → F j = o + q.2.getD (j - o) 0 ∧ q.2.getD (j - o) 0 < n := fun j hj => ⟨if_pos hj, getD_lt h2 (by omega)⟩
  have hout : ∀ j, ¬ (o ≤ j ∧ j < o + n) → F j = j := fun j hj => if_neg hj
  have hp : ((List.range c.length).map F).Perm (List.range c.length) := by
    apply map_perm_range
    · intro j hj
      by_cases hb : o ≤ j ∧ j < o + n
      · have := hin j hb; omega
      · rw [hout j hb]; exact hj
    · intro j hj k hk e
      by_cases hb : o ≤ j ∧ j < o + n <;> by_cases hb' : o ≤ k ∧ k < o + n
      · have a1 := hin j hb
        have a2 := hin k hb'
        have : j - o = k - o := getD_inj h2 (by omega) (by omega) (by omega)
        omega
      · have a1 := hin j hb
        rw [hout k hb'] at e
        omega
      · have a2 := hin k hb'
        rw [hout j hb] at e
        omega
      · rwa [hout j hb, hout k hb'] at e
  refine ⟨(1, (List.range c.length).map F), mem_groupC.mpr ⟨⟨rfl, hp⟩, fun j hj => ?_⟩, ?_, ?_⟩
  · simp only
    rw [getD_map_range F hj]
    by_cases hb : o ≤ j ∧ j < o + n
    · have a1 := hin j hb
      rw [(h.iff j hj).mpr hb, (h.iff (F j) (by omega)).mpr (by omega)]
    · rw [hout j hb]
  · intro j hj hn
    rw [len_of hp] at hj
    simp only
    rw [getD_map_range F hj]
    apply hout
    rwa [List.mem_range'_1] at hn
  · refine Prod.ext h1 ?_
    simp only
    apply ext_getD (n := n) (len_of h2) (by simp [restr])
    intro k hk
    have e : (restr (List.range' o n) ((List.range c.length).map F)).getD k 0 = (List.range' o n).idxOf (((List.range c.length).map F).getD (o + k) 0) := by
      unfold restr
      rw [List.getD_eq_getElem _ _ (by simpa using hk), List.getElem_map]
      simp
    have a1 := hin (o + k) (by omega)
    rw [e, getD_map_range F (by omega), a1.1, show o + k - o = k by omega, range'_idxOf (getD_lt h2 hk)]

/-- Invariance under permutations of the axes of the same irrep. -/
theorem place_symm {S : Irreps} {c : List ℕ} {o n i : ℕ} (h : Blk c o n i) {t : Ten} (ht : On (List.range n) t)
    (hs : Symm (List.replicate n [S.getD i ⟨0, ⟨0, .e⟩⟩]) (symmetricPermRepr n) t) : Symm (irrc S c) (groupC c) (place (List.range' o n) t) := by
  intro q hq σ hσ
  obtain ⟨⟨h1, h2⟩, h3⟩ := mem_groupC.mp hq
  have hle := h.le
  have hblk : ∀ k < n, o ≤ q.2.getD (o + k) 0 ∧ q.2.getD (o + k) 0 < o + n := by
    intro k hk
    have hj : o + k < c.length := by omega
    refine (h.iff _ (getD_lt h2 hj)).mp ?_
    rw [h3 _ hj]
    exact (h.iff _ hj).mpr (by omega)
  have hp : ((List.range n).map fun k => q.2.getD (o + k) 0 - o).Perm (List.range n) := by
    apply map_perm_range
    · intro k hk; have := hblk k hk; omega
    · intro k hk l hl e
      have a1 := hblk k hk
      have a2 := hblk l hl
      have := getD_inj h2 (i := o + k) (j := o + l) (by omega) (by omega) (by omega)
      omega
  set r : SPerm := (1, (List.range n).map fun k => q.2.getD (o + k) 0 - o) with hr
  have hR : InR (List.replicate n [S.getD i ⟨0, ⟨0, .e⟩⟩]) fun k => σ (o + k) := by
    intro k hk
    rw [List.length_replicate] at hk
    have := hσ (o + k) (by rw [irrc_length]; omega)
    unfold axisDim at this ⊢
    rw [irrc_getD S (by omega), (h.iff (o + k) (by omega)).mpr (by omega)] at this
    rw [List.getD_replicate _ hk]
    exact this
  have key := hs r (mem_symmetricPermRepr.mpr ⟨rfl, hp⟩) _ hR
  simp only [hr, Int.cast_one, one_mul] at key
  rw [h1, Int.cast_one, one_mul]
  have e1 : place (List.range' o n) t σ = t fun k => σ (o + k) := by
    apply ht
    intro k hk
    rw [range'_getD (List.mem_range.mp hk)]
  rw [e1, ← key]
  unfold pact
  apply ht
  intro k hk
  have hk' := List.mem_range.mp hk
  rw [range'_getD hk']
  simp only
  rw [hat_lt h2 (by omega), hat_lt hp hk']
  simp only
  rw [getD_map_range _ hk']
  have := hblk k hk'
  congr 1
  omega

/-- What is known about an array of a product. -/
structure PO (irr : List Irreps) (G : Finset SPerm) (f : List ℕ) (b : IArr Ten) : Prop where
  good : Good irr f b
  basis : OBasis irr G f (b.blocks.flatMap Prod.snd)
  symm : ∀ z ∈ b.blocks.flatMap Prod.snd, Symm irr G z

theorem OBasis.mono_group {irr : List Irreps} {G H : Finset SPerm} {f : List ℕ} {L : List Ten} (h : OBasis irr G f L) (hGH : ∀ q ∈ G, q ∈ H) : OBasis irr H f L :=
  ⟨h.pair, h.norm, fun t ht => h.complete t fun q hq => ht q (hGH q hq)⟩

theorem blk_irreps (S : Irreps) {c : List ℕ} {o n i : ℕ} (h : Blk c o n i) : ((List.range' o n).map fun k => (irrc S c).getD k []) = List.replicate n [S.getD i ⟨0, ⟨0, .e⟩⟩] := by
  have hle := h.le
  apply List.ext_getElem (by simp)
  intro k h1 h2
  rw [List.length_replicate] at h2
  simp only [List.getElem_map, List.getElem_range', List.getElem_replicate, Nat.one_mul]
  rw [irrc_getD S (by omega), (h.iff (o + k) (by omega)).mpr (by omega)]

theorem place_PG {S : Irreps} {c : List ℕ} {o n i : ℕ} (h : Blk c o n i) {t : IArr Ten} (g : Good (List.replicate n [S.getD i ⟨0, ⟨0, .e⟩⟩]) (List.range n) t) :
    ∃ t', t.mapCols (place (List.range' o n)) = .ok t' ∧ Good (irrc S c) (List.range' o n) t' ∧ t'.blocks = t.blocks.map fun b => (b.1, b.2.map (place (List.range' o n))) := by
  obtain ⟨z, z1, z2, z3, z4⟩ := mapCols_blocks (φ := place (List.range' o n)) rfl g.1
  refine ⟨z, z1, ⟨z2, fun p hp => ?_⟩, z4⟩
  rw [z4] at hp
  obtain ⟨q, hq, rfl⟩ := List.mem_map.mp hp
  refine place_good ((range'_pairwise o n).imp Nat.ne_of_lt) ?_
  rw [blk_irreps S h, List.length_range']
  exact g.2 q hq

theorem place_PO {S : Irreps} {c : List ℕ} {o n i : ℕ} (h : Blk c o n i) {t : IArr Ten} (g : PO (List.replicate n [S.getD i ⟨0, ⟨0, .e⟩⟩]) (symmetricPermRepr n) (List.range n) t) :
    ∃ t', t.mapCols (place (List.range' o n)) = .ok t' ∧ PO (irrc S c) (groupC c) (List.range' o n) t' := by
  obtain ⟨z, z1, z2, z4⟩ := place_PG h g.good
  have e : z.blocks.flatMap Prod.snd = (t.blocks.flatMap Prod.snd).map (place (List.range' o n)) := by
    rw [z4, List.flatMap_map, List.map_flatMap]
  have hon : ∀ x ∈ t.blocks.flatMap Prod.snd, On (List.range n) x := by
    intro x hx
    obtain ⟨q, hq, hx⟩ := List.mem_flatMap.mp hx
    exact (g.good.2 q hq).on x hx
  have hle := h.le
  refine ⟨z, z1, z2, ?_, ?_⟩
  · rw [e]
    refine place_obasis (by rw [irrc_length]; exact groupC_group c) (range'_pairwise o n) (fun i hi => by rw [irrc_length]; rw [List.mem_range'_1] at hi; omega) ?_ ?_
    · rw [List.length_range']; exact hon
    · rw [blk_irreps S h, List.length_range']
      exact g.basis.mono_group fun q hq => blk_subrepr h hq
  · rw [e]
    intro x hx
    obtain ⟨y, hy, rfl⟩ := List.mem_map.mp hx
    exact place_symm h (hon y hy) (g.symm y hy)

/-! ### products -/

theorem Symm.smul {irr : List Irreps} {G : Finset SPerm} (a : ℝ) {t : Ten} (h : Symm irr G t) : Symm irr G (a • t) := by
  intro q hq σ hσ
  rw [pact_smul, Pi.smul_apply, Pi.smul_apply, h q hq σ hσ, smul_eq_mul, smul_eq_mul]
  ring

theorem Symm.sum {irr : List Irreps} {G : Finset SPerm} {κ : Type} (s : Finset κ) {t : κ → Ten} (h : ∀ k ∈ s, Symm irr G (t k)) : Symm irr G (∑ k ∈ s, t k) := by
  intro q hq σ hσ
  rw [pact_sum, Finset.sum_apply, Finset.sum_apply, Finset.mul_sum]
  exact sum_congr rfl fun k hk => h k hk q hq σ hσ

theorem products_symm {irr : List Irreps} {G : Finset SPerm} (h1 : ∀ q ∈ G, q.1 = 1) {A B : List (Irrep × List Ten)} (lA : ∀ p ∈ A, p.2.length = p.1.dim) (lB : ∀ p ∈ B, p.2.length = p.1.dim)
    (sA : ∀ z ∈ A.flatMap Prod.snd, Symm irr G z) (sB : ∀ z ∈ B.flatMap Prod.snd, Symm irr G z) (filter : Option (List Irrep)) :
    ∀ z ∈ (products filter A B).flatMap Prod.snd, Symm irr G z := by
  intro z hz
  obtain ⟨p, hp, hz⟩ := List.mem_flatMap.mp hz
  unfold products at hp
  simp only [List.mem_flatMap, List.mem_map] at hp
  obtain ⟨b1, k1, b2, k2, ir, k3, rfl⟩ := hp
  obtain ⟨x, hx⟩ := exists_ofFn (n := 2 * b1.1.l + 1) (lA b1 k1)
  obtain ⟨y, hy⟩ := exists_ofFn (n := 2 * b2.1.l + 1) (lB b2 k2)
  simp only [hx, hy] at hz
  rw [bilinear_coefK] at hz
  obtain ⟨c, rfl⟩ := (List.mem_ofFn' _ _).mp hz
  refine Symm.sum _ fun a _ => Symm.sum _ fun b _ => Symm.smul _ (Symm.mul h1 (sA _ ?_) (sB _ ?_))
  · exact List.mem_flatMap.mpr ⟨b1, k1, by rw [hx]; exact (List.mem_ofFn' _ _).mpr ⟨a, rfl⟩⟩
  · exact List.mem_flatMap.mpr ⟨b2, k2, by rw [hy]; exact (List.mem_ofFn' _ _).mpr ⟨b, rfl⟩⟩

theorem PG.product {irr : List Irreps} {f g : List ℕ} (hfg : ∀ i ∈ f, i ∉ g) {a b : IArr Ten} (ha : Good irr f a) (hb : Good irr g b) (keep : Option (List Irrep)) :
    ∃ y, reduceBasisProduct a b keep = .ok y ∧ Good irr (f ++ g) y := by
  obtain ⟨y, y1, y2, y3⟩ := reduceBasisProduct_spec keep ha.1 hb.1
  exact ⟨y, y1, y2, fun p hp => products_good hfg keep ha.2 hb.2 p (y3.mem_iff.mp hp)⟩

theorem PO.product {irr : List Irreps} {G : Finset SPerm} (hG : IsSGroup irr.length G) (h1 : ∀ q ∈ G, q.1 = 1) {f g : List ℕ} (hfg : ∀ i ∈ f, i ∉ g) {a b : IArr Ten}
    (ha : PO irr G f a) (hb : PO irr G g b) : ∃ y, reduceBasisProduct a b none = .ok y ∧ PO irr G (f ++ g) y := by
  obtain ⟨y, y1, y2, y3⟩ := reduceBasisProduct_spec none ha.good.1 hb.good.1
  have hp := List.Perm.flatMap_right Prod.snd y3
  refine ⟨y, y1, ⟨y2, fun p hp => products_good hfg none ha.good.2 hb.good.2 p (y3.mem_iff.mp hp)⟩, ?_, ?_⟩
  · exact (products_obasis hG hfg ha.good.2 hb.good.2 ha.basis hb.basis).perm hp
  · intro z hz
    exact products_symm h1 (fun p hp => (ha.good.2 p hp).len) (fun p hp => (hb.good.2 p hp).len) ha.symm hb.symm none z (hp.mem_iff.mp hz)

/-! ### the chain of products -/

/-- Arrays with the property `P` on consecutive groups of axes. -/
def Terms (P : List ℕ → IArr Ten → Prop) : ℕ → List ℕ → List (IArr Ten) → Prop
  | _, [], [] => True
  | o, n :: ns, t :: ts => P (List.range' o n) t ∧ Terms P (o + n) ns ts
  | _, _, _ => False

theorem Terms.snoc {P : List ℕ → IArr Ten → Prop} : ∀ {o : ℕ} {ns : List ℕ} {l : List (IArr Ten)} {x : IArr Ten}, Terms P o ns (l ++ [x]) →
    ∃ ns' n, ns = ns' ++ [n] ∧ Terms P o ns' l ∧ P (List.range' (o + ns'.sum) n) x
  | o, [], l, x, h => by cases l <;> simp [Terms] at h
  | o, [n], [], x, h => ⟨[], n, rfl, trivial, by simpa using h.1⟩
  | o, n :: m :: ns, [], x, h => by simp [Terms] at h
  | o, n :: ns, t :: l, x, h => by
    obtain ⟨ns', m, e, h1, h2⟩ := Terms.snoc (l := l) (x := x) h.2
    refine ⟨n :: ns', m, by rw [e]; rfl, ⟨h.1, h1⟩, ?_⟩
    rw [List.sum_cons, ← Nat.add_assoc]
    exact h2

theorem range_append_range' (o n : ℕ) : List.range o ++ List.range' o n = List.range (o + n) := by
  rw [List.range_eq_range', List.range_eq_range', ← List.range'_append_1]
  simp

theorem range_disjoint (o n : ℕ) : ∀ i ∈ List.range o, i ∉ List.range' o n := by
  intro i hi hj
  rw [List.mem_range] at hi
  rw [List.mem_range'_1] at hj
  omega

theorem fold_terms {P : List ℕ → IArr Ten → Prop} (hP : ∀ f g a b, (∀ i ∈ f, i ∉ g) → P f a → P g b → ∃ y, reduceBasisProduct a b none = .ok y ∧ P (f ++ g) y) :
    ∀ {o : ℕ} {ns : List ℕ} {ts : List (IArr Ten)} {cur : IArr Ten}, P (List.range o) cur → Terms P o ns ts →
    ∃ y, ts.foldlM (fun cur next => reduceBasisProduct cur next none) cur = .ok y ∧ P (List.range (o + ns.sum)) y
  | o, [], [], cur, hc, _ => ⟨cur, rfl, by simpa using hc⟩
  | o, [], _ :: _, cur, hc, h => by simp [Terms] at h
  | o, _ :: _, [], cur, hc, h => by simp [Terms] at h
  | o, n :: ns, t :: ts, cur, hc, h => by
    obtain ⟨y, y1, y2⟩ := hP _ _ _ _ (range_disjoint o n) hc h.1
    rw [range_append_range'] at y2
    obtain ⟨z, z1, z2⟩ := fold_terms hP y2 h.2
    refine ⟨z, ?_, by rwa [List.sum_cons, ← Nat.add_assoc]⟩
    rw [List.foldlM_cons, y1]
    exact z1

theorem productBasis_spec {P P' : List ℕ → IArr Ten → Prop} (hP : ∀ f g a b, (∀ i ∈ f, i ∉ g) → P f a → P g b → ∃ y, reduceBasisProduct a b none = .ok y ∧ P (f ++ g) y)
    {keep : Option (List Irrep)} (hK : ∀ f g a b, (∀ i ∈ f, i ∉ g) → P f a → P g b → ∃ y, reduceBasisProduct a b keep = .ok y ∧ P' (f ++ g) y)
    (hF : ∀ f a, P f a → ∃ y, a.filter (keep.map .irs) none none = .ok y ∧ P' f y) {ns : List ℕ} {ts : List (IArr Ten)} (h : Terms P 0 ns ts) (hne : ts ≠ []) :
    ∃ y, productBasis keep ts = .ok y ∧ P' (List.range ns.sum) y := by
  match ts, hne, h with
  | [t], _, h =>
    match ns, h with
    | [n], h =>
      obtain ⟨y, y1, y2⟩ := hF _ _ h.1
      refine ⟨y, y1, ?_⟩
      rw [List.range_eq_range']
      simpa using y2
    | [], h => simp [Terms] at h
    | _ :: _ :: _, h => simp [Terms] at h
  | t :: u :: ts, _, h =>
    match ns, h with
    | [], h => simp [Terms] at h
    | n :: ns, h =>
      obtain ⟨h1, h2⟩ := h
      have hsplit : (u :: ts) = (u :: ts).dropLast ++ [(u :: ts).getLast (by simp)] := (List.dropLast_append_getLast (by simp)).symm
      rw [hsplit] at h2
      obtain ⟨ns', m, rfl, h3, h4⟩ := h2.snoc
      have h1' : P (List.range (0 + n)) t := by rw [Nat.zero_add, List.range_eq_range']; exact h1
      obtain ⟨z, z1, z2⟩ := fold_terms hP h1' h3
      obtain ⟨y, y1, y2⟩ := hK _ _ _ _ (range_disjoint _ _) z2 h4
      refine ⟨y, ?_, ?_⟩
      · unfold productBasis
        simp only [bind, Except.bind, z1, y1]
      · rw [range_append_range'] at y2
        rw [List.sum_cons, List.sum_append, List.sum_singleton, ← Nat.add_assoc]
        simpa using y2

/-! ### the terms -/

theorem nonZero_blk {c : List ℕ} {N : ℕ} {P : List ℕ → IArr Ten → Prop} (T : ℕ → ℕ → IArr Ten)
    (hT : ∀ j n o, Blk c o n j → n ≠ 0 → j < N → ∃ t', (T j n).mapCols (place (List.range' o n)) = .ok t' ∧ P (List.range' o n) t') :
    ∀ (ps : List ℕ) (i o : ℕ) (pre : List ℕ), c = pre ++ reps i ps → pre.length = o → (∀ k ∈ pre, k < i) → i + ps.length ≤ N →
    ∃ ts, placeTerms o ((((ps.zipIdx i).filter fun q => q.1 != 0).map fun q => (q.2, q.1)).map fun q => (q.2, T q.1 q.2)) = .ok ts ∧
      Terms P o (((ps.zipIdx i).filter fun q => q.1 != 0).map Prod.fst) ts ∧ (ts = [] → ps.sum = 0)
  | [], i, o, pre, _, _, _, _ => ⟨[], rfl, trivial, fun _ => rfl⟩
  | p :: ps, i, o, pre, hc, ho, hpre, hN => by
    rw [List.length_cons] at hN
    by_cases hp : p = 0
    · subst hp
      have := nonZero_blk T hT ps (i + 1) o pre (by rw [hc]; simp [reps]) ho (fun k hk => by have := hpre k hk; omega) (by omega)
      simpa [List.zipIdx_cons] using this
    · have hb : Blk c o p i := by
        have hl : c.length = o + (p + (reps (i + 1) ps).length) := by rw [hc, List.length_append, ho, reps, List.length_append, List.length_replicate]
        refine ⟨by omega, fun j hj => ?_⟩
        rw [hc]
        simp only [reps]
        by_cases h1 : j < o
        · rw [List.getD_append _ _ _ _ (by omega), List.getD_eq_getElem _ _ (by omega)]
          have := hpre _ (List.getElem_mem (l := pre) (n := j) (by omega))
          constructor
          · intro e; omega
          · intro e; omega
        · rw [List.getD_append_right _ _ _ _ (by omega)]
          by_cases h2 : j < o + p
          · rw [List.getD_append _ _ _ _ (by simp; omega), List.getD_eq_getElem _ _ (by simp; omega), List.getElem_replicate]
            simp only [true_iff]
            omega
          · rw [List.getD_append_right _ _ _ _ (by simp; omega), List.length_replicate]
            have hlt : j - pre.length - p < (reps (i + 1) ps).length := by omega
            rw [List.getD_eq_getElem _ _ hlt]
            have := (reps_ge (List.getElem_mem hlt)).1
            constructor
            · intro e; omega
            · intro e; omega
      obtain ⟨t', t1, t2⟩ := hT i p o hb hp (by omega)
      obtain ⟨ts, s1, s2, -⟩ := nonZero_blk T hT ps (i + 1) (o + p) (pre ++ List.replicate p i) (by rw [hc]; simp [reps]) (by simp [ho])
        (fun k hk => by
          rcases List.mem_append.mp hk with h | h
          · have := hpre k h; omega
          · rw [List.eq_of_mem_replicate h]; omega) (by omega)
      refine ⟨t' :: ts, ?_, ?_, by simp⟩
      · rw [List.zipIdx_cons, List.filter_cons, if_pos (by simpa using hp), List.map_cons, List.map_cons]
        simp only [placeTerms, bind, Except.bind, t1]
        rw [s1]
        rfl
      · rw [List.zipIdx_cons, List.filter_cons, if_pos (by simpa using hp), List.map_cons]
        exact ⟨t2, s2⟩

theorem nonZero_sum (ps : List ℕ) (i : ℕ) : (((ps.zipIdx i).filter fun q => q.1 != 0).map Prod.fst).sum = ps.sum := by
  induction ps generalizing i with
  | nil => rfl
  | cons p ps ih =>
    rw [List.zipIdx_cons, List.filter_cons]
    by_cases hp : p = 0
    · subst hp; simp [ih]
    · rw [if_pos (by simpa using hp)]; simp [ih]

/-- The product of the powers for one tuple. -/
theorem product_spec {ps : List ℕ} (hps : ps.sum ≠ 0) {P P' : List ℕ → IArr Ten → Prop} (T : ℕ → ℕ → IArr Ten)
    (hT : ∀ j n o, Blk (reps 0 ps) o n j → n ≠ 0 → j < ps.length → ∃ t', (T j n).mapCols (place (List.range' o n)) = .ok t' ∧ P (List.range' o n) t')
    (hP : ∀ f g a b, (∀ i ∈ f, i ∉ g) → P f a → P g b → ∃ y, reduceBasisProduct a b none = .ok y ∧ P (f ++ g) y)
    {keep : Option (List Irrep)} (hK : ∀ f g a b, (∀ i ∈ f, i ∉ g) → P f a → P g b → ∃ y, reduceBasisProduct a b keep = .ok y ∧ P' (f ++ g) y)
    (hF : ∀ f a, P f a → ∃ y, a.filter (keep.map .irs) none none = .ok y ∧ P' f y) :
    ∃ ts y, placeTerms 0 ((nonZero ps).map fun q => (q.2, T q.1 q.2)) = .ok ts ∧ productBasis keep ts = .ok y ∧ P' (List.range ps.sum) y := by
  obtain ⟨ts, h1, h2, h3⟩ := nonZero_blk (N := ps.length) T hT ps 0 0 [] rfl rfl (by simp) (by omega)
  obtain ⟨y, y1, y2⟩ := productBasis_spec hP hK hF h2 fun e => hps (h3 e)
  rw [nonZero_sum] at y2
  exact ⟨ts, y, h1, y1, y2⟩

/-! ### rotations -/

theorem onAxes_list_sum (d : ℕ → ℕ) (M : ℕ → ℕ → ℕ → ℝ) (f : List ℕ) (L : List Ten) : onAxes d M f L.sum = (L.map (onAxes d M f)).sum := by
  induction L with
  | nil =>
    have := onAxes_smul d M f 0 0
    simpa using this
  | cons t L ih => rw [List.sum_cons, onAxes_add, ih, List.map_cons, List.sum_cons]

theorem onAxes_embed {x : Irreps} {irr : List Irreps} {c a : List ℕ} (ha : a.Perm (List.range c.length)) (hx : ∀ m < c.length, irr.getD m [] = x)
    (hc : ∀ k < c.length, c.getD k 0 < (singles x).length) (R : Matrix (Fin 3) (Fin 3) ℝ) (t : Ten) :
    onAxes (axisDim irr) (mats irr R) (List.range c.length) (embed (singles x) c a t) =
      embed (singles x) c a (onAxes (axisDim (irrc (singles x) c)) (mats (irrc (singles x) c) R) (List.range c.length) t) := by
  have hl := len_of ha
  have hck : ∀ m ∈ List.range c.length, c.getD (a.getD m 0) 0 < (singles x).length := fun m hm => hc _ (getD_lt ha (List.mem_range.mp hm))
  have h := onAxes_emb (S := singles x) (c := c) (a := a) (F := List.range a.length) (nodup_of ha) (D := axisDim irr) (dk := axisDim (irrc (singles x) c)) (Mx := mats irr R) (Mk := mats (irrc (singles x) c) R)
    (List.range c.length) (fun m hm => by rw [hl]; exact ⟨List.mem_range.mp hm, hm⟩)
    (fun m hm => by unfold axisDim; rw [hx m (List.mem_range.mp hm), dim_singles])
    (fun m hm => axisDim_irrc (getD_lt ha (List.mem_range.mp hm)) (hck m hm)) (fun m hm y j hj => ?_) t
  · rw [embed_eq, embed_eq, h]
    have e : (List.range c.length).map (fun m => a.getD m 0) = a := by
      apply List.ext_getElem (by simp [hl])
      intro i h1 h2
      simp only [List.getElem_map, List.getElem_range]
      rw [List.getD_eq_getElem _ _ h2]
    rw [e, onAxes_perm _ _ ha]
  · have hk := getD_lt ha (List.mem_range.mp hm)
    unfold mats
    rw [hx m (List.mem_range.mp hm), irrc_getD _ hk, mats_singles x R (hck m hm) hj, List.getD_eq_getElem (singles x) _ (hck m hm)]

theorem symmetrize_sum (S : Irreps) (c : List ℕ) {κ : Type} (s : Finset κ) (w : κ → ℝ) (t : κ → Ten) :
    symmetrize S c (∑ k ∈ s, w k • t k) = ∑ k ∈ s, w k • symmetrize S c (t k) := by
  have he : ∀ a ∈ newPerms c, embed S c a (∑ k ∈ s, w k • t k) = ∑ k ∈ s, w k • embed S c a (t k) := by
    intro a ha
    have hp := newPerms_perm ha
    funext σ
    simp only [Finset.sum_apply, Pi.smul_apply]
    by_cases h : Fits S c a σ
    · simp only [embed_pos hp _ h, Finset.sum_apply, Pi.smul_apply]
    · simp only [embed_neg hp _ h, smul_zero, Finset.sum_const_zero]
  unfold symmetrize
  have h2 : ∀ L : List (List ℕ), (∀ a ∈ L, a ∈ newPerms c) → (L.map fun a => embed S c a (∑ k ∈ s, w k • t k)).sum = ∑ k ∈ s, w k • (L.map fun a => embed S c a (t k)).sum := by
    intro L hL
    induction L with
    | nil => simp
    | cons a L ih =>
      simp only [List.map_cons, List.sum_cons]
      rw [ih fun a ha => hL a (by simp [ha]), he a (hL a (by simp)), ← Finset.sum_add_distrib]
      exact sum_congr rfl fun k _ => (smul_add _ _ _).symm
  rw [h2 _ fun a ha => ha, Finset.smul_sum]
  exact sum_congr rfl fun k _ => smul_comm _ _ _

theorem symmetrize_good {x : Irreps} {irr : List Irreps} {c : List ℕ} (hx : ∀ m < c.length, irr.getD m [] = x) (hc : ∀ k < c.length, c.getD k 0 < (singles x).length) {p : Irrep × List Ten}
    (h : BGood (irrc (singles x) c) (List.range c.length) p) : BGood irr (List.range c.length) (p.1, p.2.map (symmetrize (singles x) c)) := by
  obtain ⟨v, hv, v2, v3⟩ := h.exists
  rw [hv, List.map_ofFn]
  refine BGood.ofFn (fun i => symmetrize_on (v2 i)) ?_
  intro R hR i
  simp only [Function.comp_apply]
  rw [← symmetrize_sum, ← v3 R hR i]
  unfold symmetrize
  rw [onAxes_smul, onAxes_list_sum, List.map_map]
  congr 2
  apply List.map_congr_left
  intro a ha
  exact onAxes_embed (newPerms_perm ha) hx hc R (v i)

end E3nn.RTP

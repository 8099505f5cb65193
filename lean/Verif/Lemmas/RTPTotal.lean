import Verif.Props.C94
import Verif.Props.C55

/-! # The algorithm returns -/

namespace E3nn.RTP

open E3nn.IArr E3nn.LinAlg E3nn.PermRepr

theorem subrepr_range {n : ℕ} {G : Finset SPerm} (hG : IsSGroup n G) : subrepr (List.range n) G = G := by
  have key : ∀ q ∈ G, (q.2.filter fun i => (List.range n).contains i).map (List.range n).idxOf = q.2 := by
    intro q hq
    have hp := hG.perm q hq
    have e : q.2.filter (fun i => (List.range n).contains i) = q.2 := by
      rw [List.filter_eq_self]
      intro i hi
      rw [List.contains_iff_mem]
      exact hp.mem_iff.mp hi
    rw [e]
    conv_rhs => rw [← List.map_id q.2]
    apply List.map_congr_left
    intro i hi
    have hi' := List.mem_range.mp (hp.mem_iff.mp hi)
    have := List.Nodup.idxOf_getElem (List.nodup_range (n := n)) i (by simpa using hi')
    rw [List.getElem_range] at this
    simpa using this
  unfold subrepr
  ext r
  rw [Finset.mem_image]
  constructor
  · rintro ⟨q, hq, rfl⟩
    rw [key q (Finset.mem_filter.mp hq).1]
    exact (Finset.mem_filter.mp hq).1
  · intro hr
    refine ⟨r, Finset.mem_filter.mpr ⟨hr, ?_⟩, by rw [key r hr]⟩
    rw [List.all_eq_true]
    intro ij hij
    have := List.fst_mem_of_mem_zipIdx hij
    simp only [Bool.or_eq_true]
    left
    rw [List.contains_iff_mem]
    exact (hG.perm r hr).mem_iff.mp this

theorem map_getD_range (dims : List ℕ) : ((List.range dims.length).map fun i => dims.getD i 0) = dims := by
  apply List.ext_getElem (by simp)
  intro i h1 h2
  rw [List.getElem_map, List.getElem_range, List.getD_eq_getElem _ _ h2]

theorem reduceSubgroup_range {n : ℕ} {G : Finset SPerm} {dims : List ℕ} (hG : IsSGroup n G) (hn : dims.length = n) (hd : Compat G dims) :
    ∃ Q, reduceSubgroup (List.range n) G dims = .ok Q ∧ ((subrepr (List.range n) G).card ≠ 1 → IndexSymmetry.IsOrthonormalBasis dims Q (Sym G dims)) := by
  unfold reduceSubgroup
  subst hn
  rw [map_getD_range, subrepr_range hG]
  by_cases h : G.card = 1
  · exact ⟨_, if_pos h, fun h' => absurd h h'⟩
  · obtain ⟨Q, h1, h2, -⟩ := group_basis hG rfl hd
    exact ⟨Q, by simp only; rw [if_neg h]; exact h1, fun _ => h2⟩

theorem finishTwo_total {eigh : Eigh} {eps : ℝ} {dims : List ℕ} {G : Finset SPerm} {keep : Option (List Irrep)} {n : ℕ} (hG : IsSGroup n G) (hn : dims.length = n) (hd : Compat G dims)
    (h0 : dims.prod ≠ 0) {a b : List ℕ × IArr Ten} (ha : Inv a.2) (hb : Inv b.2) (hab : union n a.1 b.1 = List.range n) :
    ∃ y, finishTwo eigh eps n dims G keep a b = .ok y := by
  obtain ⟨ab, ab1, ab2, ab3⟩ := reduceBasisProduct_spec keep ha hb
  unfold finishTwo
  simp only [bind, Except.bind, ab1, hab]
  split
  · obtain ⟨y, hy, -⟩ := C17_regroup ab ab2.coherent
    exact ⟨y, hy⟩
  · obtain ⟨Q, hQ, -⟩ := reduceSubgroup_range hG hn hd
    rw [hQ]
    obtain ⟨z, z1, z2, z3⟩ := constrain_spec eigh eps dims (x := ab) Q
    simp only [z1]
    obtain ⟨y, hy, -⟩ := C17_regroup z z2.coherent
    exact ⟨y, hy⟩

/-- The hypotheses of the totality theorem. -/
structure Ready (irr : List Irreps) (G : Finset SPerm) : Prop where
  ne : irr ≠ []
  group : IsSGroup irr.length G
  compat : Compat G (irr.map Irreps.dim)
  pos : ∀ x ∈ irr, x.dim ≠ 0

theorem Ready.sub {irr : List Irreps} {G : Finset SPerm} (h : Ready irr G) {f : List ℕ} (hf : f.Pairwise (· < ·)) (hlt : ∀ i ∈ f, i < irr.length) (hne : f ≠ []) :
    Ready (f.map fun k => irr.getD k []) (subrepr f G) := by
  refine ⟨by simpa using hne, ?_, ?_, ?_⟩
  · rw [List.length_map]; exact subrepr_group h.group hlt hf
  · have := subrepr_compat h.group (by simp) h.compat hlt hf
    have e : (f.map fun k => irr.getD k []).map Irreps.dim = f.map fun i => (irr.map Irreps.dim).getD i 0 := by
      rw [List.map_map]
      apply List.map_congr_left
      intro i hi
      simp only [Function.comp_apply]
      rw [List.getD_eq_getElem _ _ (hlt i hi), List.getD_eq_getElem _ _ (by simpa using hlt i hi), List.getElem_map]
    rw [e]; exact this
  · intro x hx
    obtain ⟨i, hi, rfl⟩ := List.mem_map.mp hx
    rw [List.getD_eq_getElem _ _ (hlt i hi)]
    exact h.pos _ (List.getElem_mem _)

theorem initial_ok (irr : List Irreps) : ∃ bases, initial irr = .ok bases ∧ (∀ q ∈ bases, Inv q.2) ∧ bases.length = irr.length := by
  have key : ∀ l : List (Irreps × ℕ), ∃ bases : Bases, (l.mapM fun q => (identityBasis q.2 q.1).map fun b => (([q.2], b) : List ℕ × IArr Ten)) = .ok bases ∧
      (∀ q ∈ bases, Inv q.2) ∧ bases.length = l.length := by
    intro l
    induction l with
    | nil => exact ⟨[], rfl, by simp, rfl⟩
    | cons x l ih =>
      obtain ⟨bs, h1, h2, h3⟩ := ih
      obtain ⟨b, b1, b2, -⟩ := identityBasis_spec x.2 x.1
      refine ⟨([x.2], b) :: bs, ?_, ?_, by simp [h3]⟩
      · rw [List.mapM_cons, b1, h1]
        rfl
      · intro q hq
        rcases List.mem_cons.mp hq with rfl | hq
        · exact b2
        · exact h2 q hq
  obtain ⟨bases, h1, h2, h3⟩ := key irr.zipIdx
  exact ⟨bases, h1, h2, by simpa using h3⟩

/-- `Q` is what is known about the arguments in all calls. -/
theorem basis_total {eigh : Eigh} {eps : ℝ} {opt : Optimized} {flag : Bool} (Q : List Irreps → Finset SPerm → Option (List Irrep) → Prop)
    (hQ : ∀ irr G keep f, Q irr G keep → f.Pairwise (· < ·) → (∀ i ∈ f, i < irr.length) → Q (f.map fun k => irr.getD k []) (subrepr f G) (subKeep irr f keep))
    (hopt : ∀ irr G keep, Ready irr G → Q irr G keep → useOptimized flag irr G = true → ∃ y, opt (irr.headD []) irr.length keep = .ok y ∧ Inv y) :
    ∀ n irr G keep fuel, irr.length = n → Ready irr G → Q irr G keep → (n - 1) ^ 2 + n ≤ fuel → ∃ y, basis eigh eps opt flag fuel irr G keep = some (.ok y) ∧ Inv y := by
  intro n
  induction n using Nat.strongRecOn with
  | _ n ihn =>
    intro irr G keep fuel hn hr hq hfuel
    have hpos : 0 < n := by rw [← hn]; exact List.length_pos_iff.mpr hr.ne
    have hloop : ∀ (m : ℕ) (bases : Bases) (fuel : ℕ), bases.length = m → Parts n bases → (∀ q ∈ bases, Inv q.2) → (n - 1) ^ 2 + m ≤ fuel →
        ∃ y, loop eigh eps opt flag fuel irr G keep bases = some (.ok y) ∧ Inv y := by
      intro m
      induction m with
      | zero =>
        intro bases fuel hl hP
        have hb := List.length_eq_zero_iff.mp hl
        subst hb
        have := hP.perm.length_eq
        simp at this
        omega
      | succ m ihm =>
        intro bases fuel hl hP hI hfu
        obtain ⟨fuel, rfl⟩ : ∃ k, fuel = k + 1 := ⟨fuel - 1, by omega⟩
        unfold loop
        simp only
        split
        · simp at hl
        · rename_i f b
          have hf : f = List.range irr.length := by
            rw [hn]
            exact sorted_eq_range (hP.sorted (f, b) (by simp)) (by have := hP.perm; simpa using this)
          have hib : Inv b := hI (f, b) (by simp)
          unfold finishOne
          rw [if_neg (by simp [hf])]
          cases keep with
          | none =>
            obtain ⟨y, hy, y2, -⟩ := C17_regroup b hib.coherent
            exact ⟨y, by simp only [bind, Except.bind, hy], y2.inv⟩
          | some l =>
            obtain ⟨z, z1, z2, z3⟩ := filter_blocks hib l
            obtain ⟨y, hy, y2, -⟩ := C17_regroup z z2.coherent
            exact ⟨y, by simp only [bind, Except.bind, z1, hy], y2.inv⟩
        · rename_i a b
          have h1 := hP.disjoint (a := a) (b := b) (rest := []) (List.Perm.refl _)
          have hu : union n a.1 b.1 = List.range n := by
            refine sorted_eq_range (union_sorted _ _ _) ((union_perm h1.2.1 h1.2.2 h1.1).trans ?_)
            simpa using hP.perm
          have hp0 : (irr.map Irreps.dim).prod ≠ 0 := by
            rw [Ne, List.prod_eq_zero_iff]
            intro h
            obtain ⟨x, hx, e⟩ := List.mem_map.mp h
            exact hr.pos x hx e
          obtain ⟨y, hy⟩ := finishTwo_total (eigh := eigh) (eps := eps) (keep := keep) (n := irr.length) hr.group (by simp) hr.compat hp0 (hI a (by simp)) (hI b (by simp)) (by rw [hn]; exact hu)
          refine ⟨y, by rw [hy], ?_⟩
          unfold finishTwo at hy
          obtain ⟨ab, ab1, ab2, ab3⟩ := reduceBasisProduct_spec keep (hI a (by simp)) (hI b (by simp))
          simp only [bind, Except.bind, ab1] at hy
          split at hy
          · obtain ⟨z, z1, z2, -⟩ := C17_regroup ab ab2.coherent
            rw [hy] at z1; cases z1; exact z2.inv
          · split at hy
            · cases hy
            · rename_i Q hQ
              obtain ⟨w, w1, w2, w3⟩ := constrain_spec eigh eps (irr.map Irreps.dim) (x := ab) Q
              rw [w1] at hy
              simp only at hy
              obtain ⟨z, z1, z2, -⟩ := C17_regroup w w2.coherent
              rw [hy] at z1; cases z1; exact z2.inv
        · rename_i hne1 hne2 hne3
          have hm3 : 3 ≤ bases.length := by
            by_contra hlt
            have h4 : bases.length = 0 ∨ bases.length = 1 ∨ bases.length = 2 := by omega
            rcases h4 with h | h | h
            · exact hne1 (List.length_eq_zero_iff.mp h)
            · obtain ⟨x, hx⟩ := List.length_eq_one_iff.mp h
              exact hne2 x.1 x.2 hx
            · obtain ⟨x, y, hx⟩ := List.length_eq_two.mp h
              exact hne3 x y hx
          obtain ⟨⟨i, j, f⟩, hbp⟩ := bestPair_some (n := irr.length) (G := G) (dims := irr.map Irreps.dim) (fs := bases.map Prod.fst) (by rw [List.length_map]; omega)
          rw [hbp]
          simp only
          obtain ⟨hij, hj, hf⟩ := bestPair_spec hbp
          rw [List.length_map] at hj
          have hsp := hP.split hij hj
          have e1 : (bases.map Prod.fst).getD i [] = bases[i].1 := by
            rw [List.getD_eq_getElem _ _ (by rw [List.length_map]; omega), List.getElem_map]
          have e2 : (bases.map Prod.fst).getD j [] = bases[j].1 := by
            rw [List.getD_eq_getElem _ _ (by rw [List.length_map]; omega), List.getElem_map]
          rw [e1, e2, hn] at hf
          obtain ⟨d1, d2, d3⟩ := hP.disjoint hsp
          have hrestlen : ((bases.eraseIdx j).eraseIdx i).length = bases.length - 2 := by
            have := hsp.length_eq
            simp only [List.length_cons] at this
            omega
          have hrest : (bases.eraseIdx j).eraseIdx i ≠ [] := by
            intro e; rw [e] at hrestlen; simp at hrestlen; omega
          have hsorted : f.Pairwise (· < ·) := hf ▸ union_sorted _ _ _
          have hflt : ∀ k ∈ f, k < irr.length := by
            intro k hk
            rw [hf, mem_union d2 d3] at hk
            rw [hn]
            exact hk.elim (d2 k) (d3 k)
          have hfl : f.length = bases[i].1.length + bases[j].1.length := by
            rw [hf, (union_perm d2 d3 d1).length_eq, List.length_append]
          have n1 := List.length_pos_iff.mpr (hP.nonempty bases[i] (List.getElem_mem _))
          have hfne : f ≠ [] := by intro e; rw [e] at hfl; simp at hfl; omega
          have hfn : f.length < n := by
            have hpl := (List.Perm.flatMap_right Prod.fst hsp).length_eq
            rw [List.flatMap_cons, List.flatMap_cons, List.length_append, List.length_append, hP.perm.length_eq, List.length_range] at hpl
            have : 0 < (((bases.eraseIdx j).eraseIdx i).flatMap Prod.fst).length := by
              obtain ⟨x, hx⟩ := List.exists_mem_of_ne_nil _ hrest
              have hxne := hP.nonempty x (hsp.mem_iff.mpr (by simp [hx]))
              obtain ⟨k, hk⟩ := List.exists_mem_of_ne_nil _ hxne
              exact List.length_pos_of_mem (List.mem_flatMap.mpr ⟨x, hx, hk⟩)
            omega
          have hsubfuel : (f.length - 1) ^ 2 + f.length ≤ fuel := by
            have h1 : (f.length - 1) ^ 2 ≤ (n - 2) ^ 2 := Nat.pow_le_pow_left (by omega) 2
            have hm2 : 3 ≤ m + 1 := by omega
            obtain ⟨k, rfl⟩ : ∃ k, n = k + 2 := ⟨n - 2, by omega⟩
            have h2 : (k + 2 - 1) ^ 2 = k ^ 2 + 2 * k + 1 := by rw [show k + 2 - 1 = k + 1 by omega]; ring
            have h3 : (k + 2 - 2) ^ 2 = k ^ 2 := by rw [show k + 2 - 2 = k by omega]
            rw [h2] at hfu
            rw [h3] at h1
            omega
          obtain ⟨ab, hab, iab⟩ := ihn f.length hfn (f.map fun k => irr.getD k []) (subrepr f G) (subKeep irr f keep) fuel (by simp) (hr.sub hsorted hflt hfne) (hQ irr G keep f hq hsorted hflt) hsubfuel
          unfold basis at hab
          rw [hab]
          simp only
          obtain ⟨ab', c1, c2, -, -⟩ := mapCols_blocks (φ := place f) rfl iab
          rw [c1]
          simp only
          refine ihm ((f, ab') :: (bases.eraseIdx j).eraseIdx i) fuel ?_ (hf ▸ hP.merge hsp hrest ab') ?_ (by omega)
          · simp only [List.length_cons]; omega
          · intro q hq
            rcases List.mem_cons.mp hq with rfl | hq
            · exact c2
            · exact hI q (hsp.mem_iff.mpr (by simp [hq]))
    unfold basis start
    by_cases hu : useOptimized flag irr G = true
    · rw [if_pos hu]
      obtain ⟨y, y1, y2⟩ := hopt irr G keep hr hq hu
      exact ⟨y, by rw [y1], y2⟩
    · rw [if_neg hu]
      obtain ⟨bases, b1, b2, b3⟩ := initial_ok irr
      obtain ⟨hP, -⟩ := Parts.initial b1 (fun i irreps => by obtain ⟨b, h, -⟩ := identityBasis_spec i irreps; exact ⟨b, h⟩)
      simp only [b1]
      exact hloop n bases fuel (by rw [b3, hn]) (hn ▸ hP) b2 hfuel

end E3nn.RTP

import Verif.Model.ReducedTP
import Mathlib.Data.List.GetD
import Mathlib.Data.List.Perm.Subperm
import Mathlib.Data.List.Nodup

/-! # The loop of `_reduced_tensor_product_basis`: an induction principle -/

namespace E3nn.RTP

open E3nn.LinAlg E3nn.PermRepr

theorem union_sorted (n : ℕ) (f g : List ℕ) : (union n f g).Pairwise (· < ·) := (List.pairwise_lt_range (n := n)).filter _

theorem mem_union {n : ℕ} {f g : List ℕ} (hf : ∀ i ∈ f, i < n) (hg : ∀ i ∈ g, i < n) {i : ℕ} : i ∈ union n f g ↔ i ∈ f ∨ i ∈ g := by
  unfold union
  rw [List.mem_filter]
  simp only [List.mem_range, Bool.or_eq_true, List.contains_iff_mem]
  exact ⟨fun h => h.2, fun h => ⟨h.elim (hf i) (hg i), h⟩⟩

theorem union_perm {n : ℕ} {f g : List ℕ} (hf : ∀ i ∈ f, i < n) (hg : ∀ i ∈ g, i < n) (hn : (f ++ g).Nodup) : (union n f g).Perm (f ++ g) := by
  rw [List.perm_ext_iff_of_nodup ((union_sorted n f g).imp Nat.ne_of_lt) hn]
  intro i
  rw [mem_union hf hg, List.mem_append]

theorem sorted_eq_range {n : ℕ} {f : List ℕ} (hf : f.Pairwise (· < ·)) (hp : f.Perm (List.range n)) : f = List.range n :=
  List.Perm.eq_of_pairwise (le := fun a b : ℕ => a < b) (fun a b _ _ h1 h2 => absurd h1 (by omega)) hf List.pairwise_lt_range hp

/-- The sets of axes are a partition of all axes. -/
structure Parts (n : ℕ) (bases : Bases) : Prop where
  perm : (bases.flatMap Prod.fst).Perm (List.range n)
  sorted : ∀ q ∈ bases, q.1.Pairwise (· < ·)
  nonempty : ∀ q ∈ bases, q.1 ≠ []
  two : 2 ≤ bases.length ∨ n ≤ 1

theorem Parts.lt {n : ℕ} {bases : Bases} (h : Parts n bases) {q : List ℕ × IArr Ten} (hq : q ∈ bases) : ∀ i ∈ q.1, i < n := by
  intro i hi
  have : i ∈ bases.flatMap Prod.fst := List.mem_flatMap.mpr ⟨q, hq, hi⟩
  rw [h.perm.mem_iff] at this
  exact List.mem_range.mp this

theorem mem_indexPairs {m : ℕ} {ij : ℕ × ℕ} (h : ij ∈ indexPairs m) : ij.1 < ij.2 ∧ ij.2 < m := by
  unfold indexPairs at h
  simp only [List.mem_flatMap, List.mem_range, List.mem_map, List.mem_range'_1] at h
  obtain ⟨i, hi, j, hj, rfl⟩ := h
  simp only
  omega

/-- The choice is one of the pairs. -/
theorem bestPair_spec {n : ℕ} {G : Finset SPerm} {dims : List ℕ} {fs : List (List ℕ)} {i j : ℕ} {f : List ℕ} (h : bestPair n G dims fs = some (i, j, f)) :
    i < j ∧ j < fs.length ∧ f = union n (fs.getD i []) (fs.getD j []) := by
  unfold bestPair at h
  set step := (fun (acc : Option (ℕ × (ℕ × ℕ × List ℕ))) (ij : ℕ × ℕ) =>
    let f := union n (fs.getD ij.1 []) (fs.getD ij.2 [])
    let p := reduceSubgroupDim f G dims
    match acc with
    | none => some (p, (ij.1, ij.2, f))
    | some (mp, best) => if p < mp then some (p, (ij.1, ij.2, f)) else some (mp, best)) with hstep
  have key : ∀ (l : List (ℕ × ℕ)) (acc : Option (ℕ × (ℕ × ℕ × List ℕ))), (∀ ij ∈ l, ij.1 < ij.2 ∧ ij.2 < fs.length) →
      (∀ q, acc = some q → q.2.1 < q.2.2.1 ∧ q.2.2.1 < fs.length ∧ q.2.2.2 = union n (fs.getD q.2.1 []) (fs.getD q.2.2.1 [])) →
      ∀ q, l.foldl step acc = some q → q.2.1 < q.2.2.1 ∧ q.2.2.1 < fs.length ∧ q.2.2.2 = union n (fs.getD q.2.1 []) (fs.getD q.2.2.1 []) := by
    intro l
    induction l with
    | nil => intro acc _ ha q hq; exact ha q hq
    | cons ij l ih =>
      intro acc hl ha q hq
      rw [List.foldl_cons] at hq
      refine ih _ (fun x hx => hl x (List.mem_cons_of_mem _ hx)) ?_ q hq
      intro r hr
      obtain ⟨h1, h2⟩ := hl ij (by simp)
      simp only [hstep] at hr
      cases acc with
      | none => simp only [Option.some.injEq] at hr; subst hr; exact ⟨h1, h2, rfl⟩
      | some a =>
        obtain ⟨mp, best⟩ := a
        simp only at hr
        split at hr
        · simp only [Option.some.injEq] at hr; subst hr; exact ⟨h1, h2, rfl⟩
        · simp only [Option.some.injEq] at hr; subst hr; exact ha _ rfl
  rw [Option.map_eq_some_iff] at h
  obtain ⟨q, hq, he⟩ := h
  have := key _ none (fun ij h => mem_indexPairs h) (by simp) q hq
  rw [he] at this
  exact this

/-- There is a choice as soon as there are two arrays. -/
theorem bestPair_some {n : ℕ} {G : Finset SPerm} {dims : List ℕ} {fs : List (List ℕ)} (h : 2 ≤ fs.length) : ∃ q, bestPair n G dims fs = some q := by
  unfold bestPair
  set step := (fun (acc : Option (ℕ × (ℕ × ℕ × List ℕ))) (ij : ℕ × ℕ) =>
    let f := union n (fs.getD ij.1 []) (fs.getD ij.2 [])
    let p := reduceSubgroupDim f G dims
    match acc with
    | none => some (p, (ij.1, ij.2, f))
    | some (mp, best) => if p < mp then some (p, (ij.1, ij.2, f)) else some (mp, best)) with hstep
  have hs : ∀ acc ij, ∃ q, step acc ij = some q := by
    intro acc ij
    simp only [hstep]
    cases acc with
    | none => exact ⟨_, rfl⟩
    | some a => obtain ⟨mp, best⟩ := a; simp only; split <;> exact ⟨_, rfl⟩
  have key : ∀ (l : List (ℕ × ℕ)) (a), ∃ q, l.foldl step (some a) = some q := by
    intro l
    induction l with
    | nil => intro a; exact ⟨a, rfl⟩
    | cons ij l ih => intro a; obtain ⟨q, hq⟩ := hs (some a) ij; rw [List.foldl_cons, hq]; exact ih q
  have hne : ∃ ij l, indexPairs fs.length = ij :: l := by
    have hm : (0, 1) ∈ indexPairs fs.length := by
      unfold indexPairs
      simp only [List.mem_flatMap, List.mem_range, List.mem_map, List.mem_range'_1]
      exact ⟨0, by omega, 1, by omega, rfl⟩
    cases hl : indexPairs fs.length with
    | nil => rw [hl] at hm; simp at hm
    | cons a l => exact ⟨a, l, rfl⟩
  obtain ⟨ij, l, e⟩ := hne
  obtain ⟨q0, hq0⟩ := hs none ij
  obtain ⟨q, hq⟩ := key l q0
  refine ⟨q.2, ?_⟩
  change Option.map Prod.snd (List.foldl step none (indexPairs fs.length)) = _
  rw [e, List.foldl_cons, hq0, hq]; rfl

/-- The two arrays that are merged, and the rest. -/
theorem Parts.split {n : ℕ} {bases : Bases} (h : Parts n bases) {i j : ℕ} (hij : i < j) (hj : j < bases.length) :
    bases.Perm (bases[i] :: bases[j] :: (bases.eraseIdx j).eraseIdx i) := by
  have e1 := (List.getElem_cons_eraseIdx_perm (l := bases) hj).symm
  have hi' : i < (bases.eraseIdx j).length := by rw [List.length_eraseIdx_of_lt hj]; omega
  have e2 := (List.getElem_cons_eraseIdx_perm (l := bases.eraseIdx j) hi').symm
  have e3 : (bases.eraseIdx j)[i] = bases[i] := by rw [List.getElem_eraseIdx_of_lt]; exact hij
  rw [e3] at e2
  exact e1.trans ((e2.cons _).trans (List.Perm.swap _ _ _))

theorem Parts.disjoint {n : ℕ} {bases rest : Bases} (h : Parts n bases) {a b : List ℕ × IArr Ten} (hp : bases.Perm (a :: b :: rest)) :
    (a.1 ++ b.1).Nodup ∧ (∀ i ∈ a.1, i < n) ∧ ∀ i ∈ b.1, i < n := by
  have hn : ((a :: b :: rest).flatMap Prod.fst).Nodup := by
    have : (bases.flatMap Prod.fst).Nodup := h.perm.nodup_iff.mpr List.nodup_range
    exact (List.Perm.flatMap_right _ hp).nodup_iff.mp this
  rw [List.flatMap_cons, List.flatMap_cons, ← List.append_assoc] at hn
  refine ⟨(List.nodup_append.mp hn).1, h.lt (hp.mem_iff.mpr (by simp)), h.lt (hp.mem_iff.mpr (by simp))⟩

theorem Parts.merge {n : ℕ} {bases rest : Bases} (h : Parts n bases) {a b : List ℕ × IArr Ten} (hp : bases.Perm (a :: b :: rest)) (hr : rest ≠ []) (c : IArr Ten) :
    Parts n ((union n a.1 b.1, c) :: rest) := by
  obtain ⟨h1, h2, h3⟩ := h.disjoint hp
  have hu := union_perm h2 h3 h1
  constructor
  · refine List.Perm.trans ?_ h.perm
    refine List.Perm.trans ?_ (List.Perm.flatMap_right _ hp.symm)
    rw [List.flatMap_cons, List.flatMap_cons, List.flatMap_cons, ← List.append_assoc]
    exact hu.append_right _
  · intro q hq
    rcases List.mem_cons.mp hq with rfl | hq
    · exact union_sorted _ _ _
    · exact h.sorted q (hp.mem_iff.mpr (by simp [hq]))
  · intro q hq
    rcases List.mem_cons.mp hq with rfl | hq
    · intro e
      have : a.1 ≠ [] := h.nonempty a (hp.mem_iff.mpr (by simp))
      have e' := hu.length_eq
      simp only at e
      rw [e] at e'
      simp only [List.length_nil, List.length_append] at e'
      exact this (List.length_eq_zero_iff.mp (by omega))
    · exact h.nonempty q (hp.mem_iff.mpr (by simp [hq]))
  · left
    have := List.length_pos_iff.mpr hr
    simp only [List.length_cons]
    omega

theorem Parts.initial {irr : List Irreps} {bases : Bases} (h : initial irr = .ok bases) (hid : ∀ i irreps, ∃ b, identityBasis i irreps = .ok b) :
    Parts irr.length bases ∧ ∀ q ∈ bases, ∃ i < irr.length, q.1 = [i] ∧ identityBasis i (irr.getD i []) = .ok q.2 := by
  have hm : ∀ (l : List (Irreps × ℕ)) (bs : Bases), (l.mapM fun q => (identityBasis q.2 q.1).map fun b => (([q.2], b) : List ℕ × IArr Ten)) = .ok bs →
      bs.map Prod.fst = l.map (fun q => [q.2]) ∧ ∀ q ∈ bs, ∃ x ∈ l, q.1 = [x.2] ∧ identityBasis x.2 x.1 = .ok q.2 := by
    intro l
    induction l with
    | nil => intro bs h; simp only [List.mapM_nil, pure, Except.pure, Except.ok.injEq] at h; subst h; simp
    | cons x l ih =>
      intro bs h
      obtain ⟨b, hb⟩ := hid x.2 x.1
      rw [List.mapM_cons, hb] at h
      simp only [Except.map, bind, Except.bind] at h
      split at h
      · cases h
      · rename_i bs' hbs'
        simp only [pure, Except.pure, Except.ok.injEq] at h
        subst h
        obtain ⟨i1, i2⟩ := ih bs' hbs'
        refine ⟨by simp [i1], ?_⟩
        intro q hq
        rcases List.mem_cons.mp hq with rfl | hq
        · exact ⟨x, by simp, rfl, hb⟩
        · obtain ⟨y, y1, y2, y3⟩ := i2 q hq
          exact ⟨y, by simp [y1], y2, y3⟩
  obtain ⟨h1, h2⟩ := hm _ _ h
  have hfs : bases.map Prod.fst = (List.range irr.length).map fun i => [i] := by
    rw [h1, show (fun q : Irreps × ℕ => [q.2]) = (fun i => [i]) ∘ Prod.snd from rfl, ← List.map_map, List.zipIdx_map_snd, List.range'_eq_map_range]
    simp
  constructor
  · constructor
    · rw [show bases.flatMap Prod.fst = (bases.map Prod.fst).flatten by rw [List.flatMap_def], hfs, ← List.flatMap_def]
      simp
    · intro q hq
      have : q.1 ∈ bases.map Prod.fst := List.mem_map_of_mem hq
      rw [hfs] at this
      obtain ⟨i, -, e⟩ := List.mem_map.mp this
      rw [← e]; simp
    · intro q hq
      have : q.1 ∈ bases.map Prod.fst := List.mem_map_of_mem hq
      rw [hfs] at this
      obtain ⟨i, -, e⟩ := List.mem_map.mp this
      rw [← e]; simp
    · have := congrArg List.length hfs
      simp only [List.length_map, List.length_range] at this
      omega
  · intro q hq
    obtain ⟨x, x1, x2, x3⟩ := h2 q hq
    have := List.mem_zipIdx_iff_getElem?.mp x1
    obtain ⟨hlt, he⟩ := List.getElem?_eq_some_iff.mp this
    refine ⟨x.2, hlt, x2, ?_⟩
    rw [List.getD_eq_getElem _ _ hlt, he]; exact x3

/-- Induction over the loop and the recursion. -/
theorem basis_ind {eigh : Eigh} {eps : ℝ} {opt : Optimized} {flag : Bool}
    (Q : List Irreps → Finset SPerm → Option (List Irrep) → IArr Ten → Prop)
    (P : List Irreps → Finset SPerm → Option (List Irrep) → List ℕ → IArr Ten → Prop)
    (hid : ∀ i irreps, ∃ b, identityBasis i irreps = .ok b)
    (hopt : ∀ irr G keep y, useOptimized flag irr G = true → opt (irr.headD []) irr.length keep = .ok y → Q irr G keep y)
    (hinit : ∀ irr G keep i b, i < irr.length → identityBasis i (irr.getD i []) = .ok b → P irr G keep [i] b)
    (hone : ∀ irr G keep b y, irr.length = 1 → P irr G keep [0] b → finishOne 1 keep [0] b = .ok y → Q irr G keep y)
    (htwo : ∀ irr G keep (a b : List ℕ × IArr Ten) y, a.1.Pairwise (· < ·) → b.1.Pairwise (· < ·) → a.1 ≠ [] → b.1 ≠ [] →
      (a.1 ++ b.1).Perm (List.range irr.length) → P irr G keep a.1 a.2 → P irr G keep b.1 b.2 →
      finishTwo eigh eps irr.length (irr.map Irreps.dim) G keep a b = .ok y → Q irr G keep y)
    (hsub : ∀ irr G keep f ab ab', f.Pairwise (· < ·) → (∀ i ∈ f, i < irr.length) → 2 ≤ f.length →
      Q (f.map fun k => irr.getD k []) (subrepr f G) (subKeep irr f keep) ab → ab.mapCols (place f) = .ok ab' → P irr G keep f ab') :
    ∀ fuel irr G keep y, basis eigh eps opt flag fuel irr G keep = some (.ok y) → Q irr G keep y := by
  have hstart : ∀ (fuel : ℕ), (∀ irr G keep bases y, Parts irr.length bases → (∀ q ∈ bases, P irr G keep q.1 q.2) →
      loop eigh eps opt flag fuel irr G keep bases = some (.ok y) → Q irr G keep y) →
      ∀ irr G keep y, start opt flag (loop eigh eps opt flag fuel) irr G keep = some (.ok y) → Q irr G keep y := by
    intro fuel hl irr G keep y hy
    unfold start at hy
    split at hy
    · rename_i hu
      exact hopt irr G keep y hu (Option.some.inj hy)
    · split at hy
      · cases hy
      · rename_i bases hb
        obtain ⟨p1, p2⟩ := Parts.initial hb hid
        refine hl irr G keep bases y p1 ?_ hy
        intro q hq
        obtain ⟨i, i1, i2, i3⟩ := p2 q hq
        rw [i2]
        exact hinit irr G keep i q.2 i1 i3
  have hloop : ∀ (fuel : ℕ) irr G keep bases y, Parts irr.length bases → (∀ q ∈ bases, P irr G keep q.1 q.2) →
      loop eigh eps opt flag fuel irr G keep bases = some (.ok y) → Q irr G keep y := by
    intro fuel
    induction fuel with
    | zero => intro irr G keep bases y _ _ h; simp [loop] at h
    | succ fuel ih =>
      intro irr G keep bases y hP hI hy
      unfold loop at hy
      simp only at hy
      split at hy
      · cases hy
      · rename_i f b
        have hn : irr.length = 1 := by
          rcases hP.two with h | h
          · simp at h
          · have h1 := hP.perm.length_eq
            have h2 := hP.nonempty (f, b) (by simp)
            simp only [List.flatMap_cons, List.flatMap_nil, List.append_nil, List.length_range] at h1
            have h3 : 0 < f.length := List.length_pos_iff.mpr h2
            change f.length = irr.length at h1
            omega
        have hf : f = [0] := by
          have := sorted_eq_range (n := irr.length) (hP.sorted (f, b) (by simp)) (by have := hP.perm; simpa using this)
          rw [hn] at this
          simpa using this
        subst hf
        rw [hn] at hy
        exact hone irr G keep b y hn (hI ([0], b) (by simp)) (Option.some.inj hy)
      · rename_i a b
        refine htwo irr G keep a b y (hP.sorted a (by simp)) (hP.sorted b (by simp)) (hP.nonempty a (by simp)) (hP.nonempty b (by simp)) ?_ (hI a (by simp)) (hI b (by simp)) (Option.some.inj hy)
        simpa using hP.perm
      · rename_i hne1 hne2 hne3
        split at hy
        · cases hy
        · rename_i i j f hbp
          obtain ⟨hij, hj, hf⟩ := bestPair_spec hbp
          rw [List.length_map] at hj
          have hsp := hP.split hij hj
          have e1 : (bases.map Prod.fst).getD i [] = bases[i].1 := by
            rw [List.getD_eq_getElem _ _ (by rw [List.length_map]; omega), List.getElem_map]
          have e2 : (bases.map Prod.fst).getD j [] = bases[j].1 := by
            rw [List.getD_eq_getElem _ _ (by rw [List.length_map]; omega), List.getElem_map]
          rw [e1, e2] at hf
          obtain ⟨d1, d2, d3⟩ := hP.disjoint hsp
          have hrest : (bases.eraseIdx j).eraseIdx i ≠ [] := by
            intro e
            have hl := hsp.length_eq
            rw [e] at hl
            simp only [List.length_cons, List.length_nil] at hl
            obtain ⟨x, y, hxy⟩ := List.length_eq_two.mp hl
            exact hne3 x y hxy
          split at hy
          · cases hy
          · cases hy
          · rename_i ab hab
            split at hy
            · cases hy
            · rename_i ab' hab'
              refine ih irr G keep _ y (hf ▸ hP.merge hsp hrest ab') ?_ hy
              intro q hq
              rcases List.mem_cons.mp hq with rfl | hq
              · have hfl : f.length = bases[i].1.length + bases[j].1.length := by
                  rw [hf, (union_perm d2 d3 d1).length_eq, List.length_append]
                have n1 := List.length_pos_iff.mpr (hP.nonempty bases[i] (List.getElem_mem _))
                have n2 := List.length_pos_iff.mpr (hP.nonempty bases[j] (List.getElem_mem _))
                refine hsub irr G keep f ab ab' (hf ▸ union_sorted _ _ _) ?_ (by omega) (hstart fuel (fun irr G keep bases y => ih irr G keep bases y) _ _ _ _ hab) hab'
                intro k hk
                rw [hf, mem_union d2 d3] at hk
                exact hk.elim (d2 k) (d3 k)
              · exact hI q (hsp.mem_iff.mpr (by simp [hq]))
  intro fuel irr G keep y hy
  exact hstart fuel (hloop fuel) irr G keep y hy

end E3nn.RTP

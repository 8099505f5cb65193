import Verif.Lemmas.RTPKeep

/-! # `keep_ir` in the optimized algorithm -/

namespace E3nn.RTP

open E3nn.IArr E3nn.LinAlg E3nn.PermRepr E3nn.Wig E3nn.Perm

theorem mul_assoc_mem' {a b c x y : Irrep} (hx : x ∈ a.mul b) (hy : y ∈ x.mul c) : ∃ z ∈ b.mul c, y ∈ a.mul z := by
  obtain ⟨z, h1, h2⟩ := mul_assoc_mem (mul_comm_mem hx) (mul_comm_mem hy)
  exact ⟨z, mul_comm_mem h1, mul_comm_mem h2⟩

theorem foldl_exists {l : List Irrep} {Ls : List (List Irrep)} {x : Irrep} (h : ¬ Out (Ls.foldl tpIrSeq (some l)) x) : ∃ y ∈ l, ∃ b, Poss Ls b ∧ x ∈ y.mul b := by
  induction Ls generalizing l with
  | nil =>
    rw [List.foldl_nil, out_some, not_not] at h
    exact ⟨x, h, _, rfl, mem_mul_zero x⟩
  | cons L Ls ih =>
    obtain ⟨z, hz, b, hb, hx⟩ := ih h
    obtain ⟨y, hy, hz⟩ := List.mem_flatMap.mp hz
    obtain ⟨a, ha, hz⟩ := List.mem_flatMap.mp hz
    obtain ⟨w, hw, hxw⟩ := mul_assoc_mem' hz hx
    exact ⟨y, hy, w, ⟨a, ha, b, hb, hw⟩, hxw⟩

theorem foldl_none (Ls : List (List Irrep)) : Ls.foldl tpIrSeq none = none := by
  induction Ls with
  | nil => rfl
  | cons L Ls ih => exact ih

/-- The axes that are not in `f`. -/
def comp (n : ℕ) (f : List ℕ) : List ℕ := (List.range n).filter fun i => !f.contains i

theorem comp_perm {n : ℕ} {f g : List ℕ} (hfg : ∀ i ∈ f, i ∉ g) (hg : g.Nodup) (hgn : ∀ i ∈ g, i < n) : (comp n (f ++ g) ++ g).Perm (comp n f) := by
  refine (List.perm_ext_iff_of_nodup ?_ (List.nodup_range.filter _)).mpr ?_
  · rw [List.nodup_append]
    refine ⟨List.nodup_range.filter _, hg, ?_⟩
    intro a ha b hb e
    subst e
    have := (List.mem_filter.mp ha).2
    simp [hb] at this
  · intro i
    unfold comp
    simp only [List.mem_append, List.mem_filter, List.mem_range, Bool.not_eq_true', List.contains_eq_mem, decide_eq_false_iff_not, not_or]
    constructor
    · rintro (⟨h1, h2, h3⟩ | h)
      · exact ⟨h1, h2⟩
      · exact ⟨hgn i h, fun hf => hfg i hf h⟩
    · rintro ⟨h1, h2⟩
      by_cases h : i ∈ g
      · exact Or.inr h
      · exact Or.inl ⟨h1, h2, h⟩

theorem axIrs_append (irr : List Irreps) (f g : List ℕ) : axIrs irr (f ++ g) = axIrs irr f ++ axIrs irr g := by unfold axIrs; rw [List.map_append]

theorem subKeep_mem_sub {irr : List Irreps} {f g : List ℕ} (hfg : ∀ i ∈ f, i ∉ g) (hg : g.Nodup) (hgn : ∀ i ∈ g, i < irr.length) {keep : Option (List Irrep)} {x a b : Irrep}
    (hx : ¬ Out (subKeep irr (f ++ g) keep) x) (hb : Poss (axIrs irr g) b) (hxa : x ∈ a.mul b) : ¬ Out (subKeep irr f keep) a := by
  cases keep with
  | none => rw [subKeep_none]; exact not_out_none _
  | some l =>
    rw [subKeep_eq] at hx ⊢
    obtain ⟨y, hy, b', hb', hxy⟩ := foldl_exists hx
    obtain ⟨w, hw, haw⟩ := mul_assoc_mem' hxy (mul_swap_mem hxa)
    have h1 : Poss (axIrs irr (comp irr.length (f ++ g) ++ g)) w := by rw [axIrs_append]; exact hb'.append hb hw
    exact foldl_mem (by rw [out_some, not_not]; exact hy) (h1.perm ((comp_perm hfg hg hgn).map _)) haw

theorem Poss.mono {Ls : List (List Irrep)} {L : List Irrep} (h : ∀ M ∈ Ls, ∀ a ∈ M, a ∈ L) {x : Irrep} (hx : Poss Ls x) : Poss (List.replicate Ls.length L) x := by
  induction Ls generalizing x with
  | nil => exact hx
  | cons M Ls ih =>
    obtain ⟨a, ha, b, hb, hx⟩ := hx
    exact ⟨a, h M (by simp) a ha, b, ih (fun N hN => h N (by simp [hN])) hb, hx⟩

theorem tpIrSeqPow_eq (irs : List Irrep) (n : ℕ) : some (tpIrSeqPow irs n) = (List.replicate n irs).foldl tpIrSeq (some [⟨0, .e⟩]) := by
  unfold tpIrSeqPow
  induction n with
  | zero => rfl
  | succ n ih =>
    rw [List.range_succ, List.foldl_append, List.replicate_succ', List.foldl_append, ← ih]
    rfl

theorem mem_tpIrSeqPow {irs : List Irrep} {n : ℕ} {x : Irrep} (h : Poss (List.replicate n irs) x) : x ∈ tpIrSeqPow irs n := by
  have : ¬ Out ((List.replicate n irs).foldl tpIrSeq (some [⟨0, .e⟩])) x := foldl_mem (y := ⟨0, .e⟩) (by rw [out_some]; simp) h (mul_comm_mem (mem_mul_zero x))
  rw [← tpIrSeqPow_eq, out_some, not_not] at this
  exact this

/-- What is kept of a power of one irrep is enough. -/
theorem power_keep {S : Irreps} {c : List ℕ} (hc : ∀ k < c.length, c.getD k 0 < S.length) {o n : ℕ} (hle : o + n ≤ c.length) {keep : Option (List Irrep)} {x : Irrep}
    (h : Out (tpIrSeq keep (tpIrSeqPow (S.map MulIrrep.ir) (c.length - n))) x) : Out (subKeep (irrc S c) (List.range' o n) keep) x := by
  by_contra hx
  cases keep with
  | none => exact not_out_none _ h
  | some l =>
    rw [subKeep_eq] at hx
    obtain ⟨y, hy, b, hb, hxy⟩ := foldl_exists hx
    refine tpIrSeq_mem (keep := some l) (y := y) (by rw [out_some, not_not]; exact hy) (mem_tpIrSeqPow (n := c.length - n) ?_) hxy h
    have hlen : (axIrs (irrc S c) ((List.range (irrc S c).length).filter fun i => !(List.range' o n).contains i)).length = c.length - n := by
      unfold axIrs
      have h1 := (comp_perm (n := c.length) (f := []) (g := List.range' o n) (by simp) ((range'_pairwise o n).imp Nat.ne_of_lt) (fun i hi => by rw [List.mem_range'_1] at hi; omega)).length_eq
      have h2 : (comp c.length []).length = c.length := by simp [comp]
      rw [h2, List.length_append, List.length_range', List.nil_append] at h1
      unfold comp at h1
      rw [List.length_map, irrc_length]
      omega
    rw [← hlen]
    refine hb.mono ?_
    intro M hM a ha
    obtain ⟨i, hi, rfl⟩ := List.mem_map.mp hM
    have hi : i < c.length := by
      have := (List.mem_filter.mp hi).1
      rwa [irrc_length, List.mem_range] at this
    rw [irrc_getD S hi, List.map_singleton, List.mem_singleton] at ha
    have := hc i hi
    rw [List.getD_eq_getElem _ _ this] at ha
    rw [ha]
    exact List.mem_map_of_mem (List.getElem_mem _)

theorem place_kb {S : Irreps} {c : List ℕ} {o n i : ℕ} (h : Blk c o n i) {keep : Option (List Irrep)} {t : IArr Ten} (it : Inv t)
    (k : KB (List.replicate n [S.getD i ⟨0, ⟨0, .e⟩⟩]) (symmetricPermRepr n) (List.range n) keep True t.blocks) :
    ∃ t', t.mapCols (place (List.range' o n)) = .ok t' ∧ Inv t' ∧ KB (irrc S c) (groupC c) (List.range' o n) keep True t'.blocks := by
  obtain ⟨z, z1, z2, z3, z4⟩ := mapCols_blocks (φ := place (List.range' o n)) rfl it
  refine ⟨z, z1, z2, ?_⟩
  obtain ⟨A', h1, h2, h3, h4⟩ := k
  have hle := h.le
  have hax : axIrs (List.replicate n [S.getD i ⟨0, ⟨0, .e⟩⟩]) (List.range n) = axIrs (irrc S c) (List.range' o n) := by
    rw [← blk_irreps S h]
    unfold axIrs
    apply List.ext_getElem (by simp)
    intro k h1 h2
    simp only [List.length_map, List.length_range] at h1
    simp [h1]
  have e : (z.blocks ++ A'.map fun b => (b.1, b.2.map (place (List.range' o n)))).flatMap Prod.snd = ((t.blocks ++ A').flatMap Prod.snd).map (place (List.range' o n)) := by
    rw [z4, ← List.map_append, List.flatMap_map, List.map_flatMap]
  have hon : ∀ x ∈ (t.blocks ++ A').flatMap Prod.snd, On (List.range n) x := by
    intro x hx
    obtain ⟨q, hq, hx⟩ := List.mem_flatMap.mp hx
    exact (h1 q hq).1.on x hx
  refine ⟨A'.map fun b => (b.1, b.2.map (place (List.range' o n))), ?_, ?_, ?_, ?_⟩
  · intro p hp
    rw [z4, ← List.map_append] at hp
    obtain ⟨q, hq, rfl⟩ := List.mem_map.mp hp
    refine ⟨place_good ((range'_pairwise o n).imp Nat.ne_of_lt) ?_, ?_⟩
    · rw [blk_irreps S h, List.length_range']
      exact (h1 q hq).1
    · rw [← hax]; exact (h1 q hq).2
  · intro p hp
    obtain ⟨q, hq, rfl⟩ := List.mem_map.mp hp
    exact h2 q hq
  · rw [e]
    refine place_obasis (by rw [irrc_length]; exact groupC_group c) (range'_pairwise o n) (fun i hi => by rw [irrc_length]; rw [List.mem_range'_1] at hi; omega) ?_ ?_
    · rw [List.length_range']; exact hon
    · rw [blk_irreps S h, List.length_range']
      exact h3.mono_group fun q hq => blk_subrepr h hq
  · intro _ x hx
    rw [e] at hx
    obtain ⟨y, hy, rfl⟩ := List.mem_map.mp hx
    exact place_symm h (hon y hy) (h4 trivial y hy)

/-- What is known about the products before the last one. -/
def PK (S : Irreps) (keep : Option (List Irrep)) (c f : List ℕ) (a : IArr Ten) : Prop :=
  (∀ i ∈ f, i < c.length) ∧ f.Nodup ∧ Inv a ∧ KB (irrc S c) (groupC c) f (subKeep (irrc S c) f keep) True a.blocks

/-- What is known about the whole products. -/
def PK' (S : Irreps) (keep : Option (List Irrep)) (c f : List ℕ) (a : IArr Ten) : Prop :=
  Inv a ∧ (f.Perm (List.range c.length) → KB (irrc S c) (groupC c) f keep True a.blocks ∧ ∀ p ∈ a.blocks, ¬ Out keep p.1)

theorem PK.product {S : Irreps} {keep : Option (List Irrep)} {c f g : List ℕ} {a b : IArr Ten} (hfg : ∀ i ∈ f, i ∉ g) (ha : PK S keep c f a) (hb : PK S keep c g b) :
    ∃ y, reduceBasisProduct a b none = .ok y ∧ PK S keep c (f ++ g) y := by
  obtain ⟨a1, a2, a3, a4⟩ := ha
  obtain ⟨b1, b2, b3, b4⟩ := hb
  obtain ⟨y, y1, y2, y3⟩ := reduceBasisProduct_spec none a3 b3
  refine ⟨y, y1, ?_, ?_, y2, ?_⟩
  · intro i hi
    exact (List.mem_append.mp hi).elim (a1 i) (b1 i)
  · exact List.nodup_append.mpr ⟨a2, b2, fun i hi j hj e => hfg i hi (e ▸ hj)⟩
  · refine (products_kb_none (by rw [irrc_length]; exact groupC_group c) hfg a4 b4 ?_ ?_ fun _ q hq => (mem_groupC.mp hq).1.1).perm y3
    · intro u v x hx hv hux
      exact subKeep_mem_sub hfg b2 (by rw [irrc_length]; exact b1) hx hv hux
    · intro u v x hx hu hux
      refine subKeep_mem_sub (f := g) (g := f) (fun i hi hj => hfg i hj hi) a2 (by rw [irrc_length]; exact a1) ?_ hu (mul_comm_mem hux)
      have e : subKeep (irrc S c) (g ++ f) keep = subKeep (irrc S c) (f ++ g) keep := by
        rw [subKeep_eq, subKeep_eq]
        congr 2
        apply List.filter_congr
        intro i _
        simp [or_comm]
      rw [e]; exact hx

theorem PK.last {S : Irreps} {keep : Option (List Irrep)} {c f g : List ℕ} {a b : IArr Ten} (hfg : ∀ i ∈ f, i ∉ g) (ha : PK S keep c f a) (hb : PK S keep c g b) :
    ∃ y, reduceBasisProduct a b keep = .ok y ∧ PK' S keep c (f ++ g) y := by
  obtain ⟨a1, a2, a3, a4⟩ := ha
  obtain ⟨b1, b2, b3, b4⟩ := hb
  obtain ⟨y, y1, y2, y3⟩ := reduceBasisProduct_spec keep a3 b3
  refine ⟨y, y1, y2, fun hp => ⟨?_, ?_⟩⟩
  · rw [← irrc_length S c] at hp
    refine (products_kb (by rw [irrc_length]; exact groupC_group c) hfg a4 b4 ?_ ?_ fun _ q hq => (mem_groupC.mp hq).1.1).perm y3
    · intro u v x hx hv hux
      exact subKeep_mem hp hx hv hux
    · intro u v x hx hu hux
      exact subKeep_mem (List.perm_append_comm.trans hp) hx hu (mul_comm_mem hux)
  · intro p hp
    have hp := y3.mem_iff.mp hp
    unfold products at hp
    simp only [List.mem_flatMap, List.mem_map] at hp
    obtain ⟨b1, -, b2, -, ir, h3, rfl⟩ := hp
    have := (List.mem_filter.mp h3).2
    cases keep with
    | none => exact not_out_none _
    | some l => rw [out_some, not_not]; simpa using this

theorem PK.filter {S : Irreps} {keep : Option (List Irrep)} {c f : List ℕ} {a : IArr Ten} (ha : PK S keep c f a) : ∃ y, a.filter (keep.map .irs) none none = .ok y ∧ PK' S keep c f y := by
  classical
  obtain ⟨a1, a2, a3, a4⟩ := ha
  have hsk : f.Perm (List.range c.length) → subKeep (irrc S c) f keep = keep := by
    intro hp
    rw [subKeep_eq]
    have : ((List.range (irrc S c).length).filter fun i => !f.contains i) = [] := by
      rw [List.filter_eq_nil_iff]
      intro i hi
      rw [irrc_length] at hi
      have := hp.mem_iff.mpr hi
      simp [this]
    rw [this]; rfl
  cases keep with
  | none =>
    exact ⟨a, rfl, a3, fun hp => ⟨by rw [hsk hp] at a4; exact a4, fun p _ => not_out_none _⟩⟩
  | some l =>
    obtain ⟨z, z1, z2, z3⟩ := filter_blocks a3 l
    refine ⟨z, z1, z2, fun hp => ⟨?_, ?_⟩⟩
    · rw [hsk hp] at a4
      obtain ⟨A', k1, k2, k3, k4⟩ := a4
      refine KB.of_full (F := a.blocks ++ A') k1 k3 k4 _ ?_
      rw [List.filter_append, z3]
      have e : A'.filter (fun p => decide (¬ Out (some l) p.1)) = [] := by
        rw [List.filter_eq_nil_iff]
        intro p hp
        simpa using k2 p hp
      rw [e, List.append_nil]
      refine List.Perm.of_eq (List.filter_congr fun p _ => ?_)
      simp [out_some]
    · intro p hp
      rw [z3] at hp
      rw [out_some, not_not]
      simpa using (List.mem_filter.mp hp).2

/-- A turn of the loop that gives something gives at least one column. -/
theorem term_dim {S : Irreps} {pows : List (List (IArr Ten))} {keep : Option (List Irrep)} {p : List ℕ} {z : IArr Ten} (h : term S pows keep p = .ok (some z)) : z.irreps.dim ≠ 0 := by
  unfold term at h
  simp only [bind, Except.bind, pure, Except.pure] at h
  split at h
  · cases h
  split at h
  · cases h
  split at h
  · cases h
  rename_i hd
  split at h
  · cases h
  rename_i y hy
  cases h
  obtain ⟨e, -⟩ := make_ok_eq hy
  rw [e]
  exact hd

/-- The optimized algorithm when the powers are given: the blocks, and whether it returns. -/
theorem optimizedWith_core {pow : Power} {x : Irreps} {d : ℕ} (hS : 0 < (singles x).length) (hd : d ≠ 0)
    (hpow : ∀ mi ∈ singles x, ∀ n, n ≠ 0 → n ≤ d → ∀ keep t, pow mi n keep = .ok t → Inv t ∧ KB (List.replicate n [mi]) (symmetricPermRepr n) (List.range n) keep True t.blocks)
    {keep : Option (List Irrep)} {irr : List Irreps} (hlen : irr.length = d) (hirr : ∀ m < d, irr.getD m [] = x) {pows : List (List (IArr Ten))}
    (hpows : ((singles x).mapM fun mi => (List.range d).mapM fun n => pow mi (n + 1) (tpIrSeq keep (tpIrSeqPow ((singles x).map MulIrrep.ir) (d - (n + 1))))) = .ok pows) :
    ∃ L, KB irr (symmetricPermRepr d) (List.range irr.length) keep True L ∧ (∀ p ∈ L, ¬ Out keep p.1) ∧
      ((L = [] ∧ optimizedWith pow x d keep = .error .valueError) ∨ ∃ y, optimizedWith pow x d keep = .ok y ∧ Inv y ∧ y.blocks.Perm L ∧ L ≠ []) := by
  obtain ⟨hl, hg⟩ := mapM_getD hpows
  have hT : ∀ j n, n ≠ 0 → j < (singles x).length → n ≤ d → Inv ((pows.getD j []).getD (n - 1) ⟨[], [], none, none⟩) ∧
      KB (List.replicate n [(singles x).getD j ⟨0, ⟨0, .e⟩⟩]) (symmetricPermRepr n) (List.range n) (tpIrSeq keep (tpIrSeqPow ((singles x).map MulIrrep.ir) (d - n))) True
        ((pows.getD j []).getD (n - 1) ⟨[], [], none, none⟩).blocks := by
    intro j n hn hj hnd
    have h1 := hg j hj []
    obtain ⟨-, h2⟩ := mapM_getD h1
    have h3 := h2 (n - 1) (by rw [List.length_range]; omega) ⟨[], [], none, none⟩
    rw [List.getElem_range, show n - 1 + 1 = n by omega] at h3
    have := hpow _ (List.getElem_mem hj) n hn hnd _ _ h3
    rwa [← List.getD_eq_getElem _ ⟨0, ⟨0, .e⟩⟩ hj] at this
  have hclen : ∀ p ∈ tuplesWithSum (singles x).length d, (reps 0 p).length = d := fun p hp => by rw [reps_length]; exact ((mem_tuples _ _ _ hS).mp hp).2
  have hcl : ∀ p ∈ tuplesWithSum (singles x).length d, ∀ k < (reps 0 p).length, (reps 0 p).getD k 0 < (singles x).length := by
    intro p hp k hk
    rw [List.getD_eq_getElem _ _ hk]
    have := (reps_ge (List.getElem_mem hk)).2
    rw [((mem_tuples _ _ _ hS).mp hp).1] at this
    omega
  obtain ⟨Y, hY, ys, h1, h2, h3⟩ := tail_spec (S := singles x) (keep := keep) (P := PK (singles x) keep) (P' := PK' (singles x) keep) hS hd
    (pows := pows) (fun p hp j n o hb hn hj hnd => by
      obtain ⟨i1, k1⟩ := hT j n hn hj hnd
      obtain ⟨t', t1, t2, t3⟩ := place_kb hb i1 k1
      have hle := hb.le
      refine ⟨t', t1, ?_, (range'_pairwise o n).imp Nat.ne_of_lt, t2, t3.mono fun x hx => ?_⟩
      · intro i hi
        rw [List.mem_range'_1] at hi
        omega
      · refine power_keep (hcl p hp) hle ?_
        rw [hclen p hp]; exact hx)
    (fun c f g a b hfg ha hb => ha.product hfg hb) (fun c f g a b hfg ha hb => ha.last hfg hb)
    (fun c f a ha => ha.filter) (fun c f a ha => ha.1)
  have hD : ∀ m < d, axisDim irr m = (singles x).dim := by
    intro m hm
    unfold axisDim
    rw [hirr m hm, dim_singles]
  have hK : ∀ p, ∃ A', p ∈ tuplesWithSum (singles x).length d →
      (∀ q ∈ (Y p).blocks ++ A', BGood (irrc (singles x) (reps 0 p)) (List.range d) q ∧ Poss (axIrs (irrc (singles x) (reps 0 p)) (List.range d)) q.1) ∧ (∀ q ∈ A', Out keep q.1) ∧
        OBasis (irrc (singles x) (reps 0 p)) (groupC (reps 0 p)) (List.range d) (((Y p).blocks ++ A').flatMap Prod.snd) ∧
        ∀ z ∈ ((Y p).blocks ++ A').flatMap Prod.snd, Symm (irrc (singles x) (reps 0 p)) (groupC (reps 0 p)) z := by
    intro p
    by_cases hp : p ∈ tuplesWithSum (singles x).length d
    · obtain ⟨⟨A', k1, k2, k3, k4⟩, -⟩ := (hY p hp).2 (by rw [hclen p hp])
      exact ⟨A', fun _ => ⟨k1, k2, k3, k4 trivial⟩⟩
    · exact ⟨[], fun h => absurd h hp⟩
  choose A' hA using hK
  set L := (tuplesWithSum (singles x).length d).flatMap fun p => mapBlocks (symmetrize (singles x) (reps 0 p)) (Y p).blocks with hL
  obtain ⟨o1, o2⟩ := symmetrize_obasis hS hlen hD (fun p => ((Y p).blocks ++ A' p).flatMap Prod.snd)
    (fun p hp t ht => by
      obtain ⟨q, hq, hx⟩ := List.mem_flatMap.mp ht
      exact ((hA p hp).1 q hq).1.on t hx)
    (fun p hp => (hA p hp).2.2.2) (fun p hp => (hA p hp).2.2.1)
  have hperm : (L ++ (tuplesWithSum (singles x).length d).flatMap fun p => mapBlocks (symmetrize (singles x) (reps 0 p)) (A' p)).Perm
      ((tuplesWithSum (singles x).length d).flatMap fun p => mapBlocks (symmetrize (singles x) (reps 0 p)) ((Y p).blocks ++ A' p)) := by
    refine (List.flatMap_append_perm _ _ _).trans (List.Perm.of_eq ?_)
    apply List.flatMap_congr
    intro p _
    unfold mapBlocks
    rw [List.map_append]
  have e : ((tuplesWithSum (singles x).length d).flatMap fun p => mapBlocks (symmetrize (singles x) (reps 0 p)) ((Y p).blocks ++ A' p)).flatMap Prod.snd =
      (tuplesWithSum (singles x).length d).flatMap fun p => (((Y p).blocks ++ A' p).flatMap Prod.snd).map (symmetrize (singles x) (reps 0 p)) := by
    rw [List.flatMap_assoc]
    apply List.flatMap_congr
    intro p _
    unfold mapBlocks
    rw [List.flatMap_map, List.map_flatMap]
  have hp2 := List.Perm.flatMap_right Prod.snd hperm
  rw [e] at hp2
  refine ⟨L, ⟨(tuplesWithSum (singles x).length d).flatMap fun p => mapBlocks (symmetrize (singles x) (reps 0 p)) (A' p), ?_, ?_, ?_, ?_⟩, ?_, ?_⟩
  · intro q hq
    have := hperm.mem_iff.mp hq
    obtain ⟨p, hp, hq⟩ := List.mem_flatMap.mp this
    obtain ⟨r, hr, rfl⟩ := List.mem_map.mp hq
    obtain ⟨g1, g2⟩ := (hA p hp).1 r hr
    constructor
    · have := symmetrize_good (x := x) (irr := irr) (c := reps 0 p) (p := r) (by rw [hclen p hp]; exact hirr) (hcl p hp) (by rw [hclen p hp]; exact g1)
      rw [hclen p hp] at this
      rw [hlen]; exact this
    · have h4 : (axIrs irr (List.range irr.length)) = List.replicate (axIrs (irrc (singles x) (reps 0 p)) (List.range d)).length (x.map MulIrrep.ir) := by
        rw [hlen, List.eq_replicate_iff]
        refine ⟨by simp [axIrs], ?_⟩
        intro L hL
        obtain ⟨i, hi, rfl⟩ := List.mem_map.mp hL
        rw [hirr i (List.mem_range.mp hi)]
      rw [h4]
      refine g2.mono ?_
      intro M hM a ha
      obtain ⟨i, hi, rfl⟩ := List.mem_map.mp hM
      have hi : i < (reps 0 p).length := by rw [hclen p hp]; exact List.mem_range.mp hi
      rw [irrc_getD _ hi, List.map_singleton, List.mem_singleton] at ha
      have hm := getD_singles (hcl p hp i hi)
      rw [ha]
      generalize (singles x).getD ((reps 0 p).getD i 0) ⟨0, ⟨0, .e⟩⟩ = mi at hm ⊢
      unfold singles at hm
      obtain ⟨m, hm1, hm2⟩ := List.mem_flatMap.mp hm
      rw [List.eq_of_mem_replicate hm2]
      exact List.mem_map.mpr ⟨m, hm1, rfl⟩
  · intro q hq
    obtain ⟨p, hp, hq⟩ := List.mem_flatMap.mp hq
    obtain ⟨r, hr, rfl⟩ := List.mem_map.mp hq
    exact (hA p hp).2.1 r hr
  · rw [hlen]; exact o1.perm hp2
  · exact fun _ w hw => (o2 w (hp2.mem_iff.mp hw)).2
  · intro q hq
    obtain ⟨p, hp, hq⟩ := List.mem_flatMap.mp hq
    obtain ⟨r, hr, rfl⟩ := List.mem_map.mp hq
    exact ((hY p hp).2 (by rw [hclen p hp])).2 r hr
  · by_cases hz : ys.reduceOption = []
    · left
      refine ⟨by rw [← h3, hz]; rfl, ?_⟩
      unfold optimizedWith
      simp only [bind, Except.bind, hpows, h1, hz]
      rfl
    · right
      obtain ⟨z, z1, z2, z3⟩ := finish_all hz h2
      refine ⟨z, ?_, z2, by rw [← h3]; exact z3, ?_⟩
      · unfold optimizedWith
        simp only [bind, Except.bind, hpows, h1]
        simp only [bind, Except.bind] at z1
        exact z1
      · rw [← h3]
        intro hnil
        obtain ⟨w, hw⟩ := List.exists_mem_of_ne_nil _ hz
        have hb : w.blocks = [] := List.flatMap_eq_nil_iff.mp hnil w hw
        have hw' : some w ∈ ys := List.reduceOption_mem_iff.mp hw
        obtain ⟨i, hi, hiy⟩ := List.getElem_of_mem hw'
        obtain ⟨e1, e2⟩ := mapM_getD h1
        have := e2 i (by rw [← e1]; exact hi) none
        rw [List.getD_eq_getElem _ _ hi, hiy] at this
        refine term_dim this ?_
        have h5 := blocks_irs w
        rw [hb] at h5
        rw [Irreps.dim_eq_dimOf_expand, ← h5]; rfl

theorem optimizedWith_kept {pow : Power} {x : Irreps} {d : ℕ} (hS : 0 < (singles x).length) (hd : d ≠ 0)
    (hpow : ∀ mi ∈ singles x, ∀ n, n ≠ 0 → n ≤ d → ∀ keep t, pow mi n keep = .ok t → Inv t ∧ KB (List.replicate n [mi]) (symmetricPermRepr n) (List.range n) keep True t.blocks)
    {keep : Option (List Irrep)} {y : IArr Ten} {irr : List Irreps} (hlen : irr.length = d)
    (hirr : ∀ m < d, irr.getD m [] = x) (h : optimizedWith pow x d keep = .ok y) : Kept irr (symmetricPermRepr d) keep y := by
  have h' := h
  unfold optimizedWith at h'
  simp only [bind, Except.bind] at h'
  split at h'
  · cases h'
  rename_i pows hpows
  obtain ⟨L, k, o, c⟩ := optimizedWith_core hS hd hpow hlen hirr hpows
  rcases c with ⟨-, c⟩ | ⟨y', c1, c2, c3, -⟩
  · rw [h] at c; cases c
  · rw [h] at c1; cases c1
    exact ⟨c2, (k.perm c3).imp fun _ => trivial, fun p hp => o p (c3.mem_iff.mp hp)⟩

end E3nn.RTP

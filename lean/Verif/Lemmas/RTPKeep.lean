import Verif.Lemmas.RTPConstrain
import Verif.Lemmas.RTPPlace
import Verif.Props.C95
import Verif.Lemmas.RTPOptSpec

/-! # `keep_ir`: what is left out is made of irreps that are not kept -/

namespace E3nn.RTP

open E3nn.IArr E3nn.LinAlg E3nn.PermRepr E3nn.Wig E3nn.Perm

/-! ### the selection rule -/

theorem pmul_comm (a b : Parity) : a.mul b = b.mul a := by cases a <;> cases b <;> rfl
theorem pmul_assoc (a b c : Parity) : (a.mul b).mul c = a.mul (b.mul c) := by cases a <;> cases b <;> cases c <;> rfl

theorem mem_mul {a b c : Irrep} : c ∈ a.mul b ↔ (a.l ≤ b.l + c.l ∧ b.l ≤ a.l + c.l ∧ c.l ≤ a.l + b.l) ∧ c.p = a.p.mul b.p := by
  unfold Irrep.mul
  simp only [List.mem_map, List.mem_range'_1]
  constructor
  · rintro ⟨k, hk, rfl⟩
    exact ⟨by simp only; omega, rfl⟩
  · rintro ⟨h1, h2⟩
    refine ⟨c.l, by omega, ?_⟩
    rw [← h2]

theorem mul_assoc_mem {a b c x y : Irrep} (hx : x ∈ b.mul c) (hy : y ∈ a.mul x) : ∃ z ∈ a.mul b, y ∈ z.mul c := by
  rw [mem_mul] at hx hy
  refine ⟨⟨max (max a.l b.l - min a.l b.l) (max c.l y.l - min c.l y.l), a.p.mul b.p⟩, ?_, ?_⟩
  · rw [mem_mul]; exact ⟨by simp only; omega, rfl⟩
  · rw [mem_mul]; exact ⟨by simp only; omega, by simp only; rw [hy.2, hx.2, pmul_assoc]⟩

theorem mul_comm_mem {a b x : Irrep} (hx : x ∈ a.mul b) : x ∈ b.mul a := by
  rw [mem_mul] at hx ⊢
  exact ⟨by omega, by rw [hx.2, pmul_comm]⟩

theorem mul_swap_mem {a b x : Irrep} (hx : x ∈ a.mul b) : a ∈ x.mul b := by
  rw [mem_mul] at hx ⊢
  refine ⟨by omega, ?_⟩
  rw [hx.2]
  cases a.p <;> cases b.p <;> rfl

theorem mem_mul_zero (a : Irrep) : a ∈ a.mul ⟨0, .e⟩ := by
  rw [mem_mul]
  exact ⟨by simp, by cases a.p <;> rfl⟩

/-- The irreps that a product of the lists can contain. -/
def Poss : List (List Irrep) → Irrep → Prop
  | [], x => x = ⟨0, .e⟩
  | L :: Ls, x => ∃ a ∈ L, ∃ b, Poss Ls b ∧ x ∈ a.mul b

theorem Poss.append {K L : List (List Irrep)} {a b x : Irrep} (ha : Poss K a) (hb : Poss L b) (hx : x ∈ a.mul b) : Poss (K ++ L) x := by
  induction K generalizing a x with
  | nil =>
    have ha : a = ⟨0, .e⟩ := ha
    subst ha
    have : x = b := by
      rw [mem_mul] at hx
      obtain ⟨xl, xp⟩ := x
      obtain ⟨bl, bp⟩ := b
      simp only at hx
      have h1 : xl = bl := by omega
      have h2 : xp = bp := by rw [hx.2]; cases bp <;> rfl
      rw [h1, h2]
    rw [this]; exact hb
  | cons M K ih =>
    obtain ⟨c, hc, d, hd, had⟩ := ha
    obtain ⟨z, hz, hxz⟩ := mul_assoc_mem (mul_comm_mem had) (mul_comm_mem hx)
    exact ⟨c, hc, z, ih hd (mul_comm_mem hz), mul_comm_mem hxz⟩

theorem Poss.perm {K L : List (List Irrep)} (h : K.Perm L) {x : Irrep} (hx : Poss K x) : Poss L x := by
  induction h generalizing x with
  | nil => exact hx
  | cons M _ ih =>
    obtain ⟨a, ha, b, hb, hx⟩ := hx
    exact ⟨a, ha, b, ih hb, hx⟩
  | swap M N K =>
    obtain ⟨a, ha, b, ⟨c, hc, d, hd, hb⟩, hx⟩ := hx
    obtain ⟨z, hz, hxz⟩ := mul_assoc_mem (mul_comm_mem hb) hx
    exact ⟨c, hc, z, ⟨a, ha, d, hd, hz⟩, mul_comm_mem hxz⟩
  | trans _ _ ih1 ih2 => exact ih2 (ih1 hx)

/-- The irrep is left out by `keep_ir`. -/
def Out (keep : Option (List Irrep)) (ir : Irrep) : Prop := ∃ l, keep = some l ∧ ir ∉ l

theorem not_out_none (ir : Irrep) : ¬ Out none ir := fun ⟨_, h, _⟩ => by cases h
theorem out_some {l : List Irrep} {ir : Irrep} : Out (some l) ir ↔ ir ∉ l := ⟨fun ⟨_, h, h'⟩ => by cases h; exact h', fun h => ⟨l, rfl, h⟩⟩

/-- The lists of irreps of the axes. -/
def axIrs (irr : List Irreps) (f : List ℕ) : List (List Irrep) := f.map fun i => (irr.getD i []).map MulIrrep.ir

theorem tpIrSeq_mem {keep : Option (List Irrep)} {L : List Irrep} {y a z : Irrep} (hy : ¬ Out keep y) (ha : a ∈ L) (hz : z ∈ y.mul a) : ¬ Out (tpIrSeq keep L) z := by
  cases keep with
  | none => exact not_out_none _
  | some l =>
    rw [out_some, not_not] at hy
    unfold tpIrSeq
    rw [Option.map_some, out_some, not_not]
    exact List.mem_flatMap.mpr ⟨y, hy, List.mem_flatMap.mpr ⟨a, ha, hz⟩⟩

theorem foldl_mem {keep : Option (List Irrep)} {Ls : List (List Irrep)} {y b x : Irrep} (hy : ¬ Out keep y) (hb : Poss Ls b) (hx : x ∈ y.mul b) : ¬ Out (Ls.foldl tpIrSeq keep) x := by
  induction Ls generalizing keep y b with
  | nil =>
    have hb : b = ⟨0, .e⟩ := hb
    subst hb
    have : x = y := by
      rw [mem_mul] at hx
      obtain ⟨xl, xp⟩ := x
      obtain ⟨bl, bp⟩ := y
      simp only at hx
      have h1 : xl = bl := by omega
      have h2 : xp = bp := by rw [hx.2]; cases bp <;> rfl
      rw [h1, h2]
    rw [this]; exact hy
  | cons L Ls ih =>
    obtain ⟨a, ha, c, hc, hbc⟩ := hb
    obtain ⟨z, hz, hxz⟩ := mul_assoc_mem hbc hx
    exact ih (tpIrSeq_mem hy ha hz) hc hxz

theorem subKeep_eq (irr : List Irreps) (f : List ℕ) (keep : Option (List Irrep)) :
    subKeep irr f keep = (axIrs irr ((List.range irr.length).filter fun i => !f.contains i)).foldl tpIrSeq keep := by
  unfold subKeep axIrs
  have e : irr.zipIdx = (List.range irr.length).map fun i => (irr.getD i [], i) := by
    apply List.ext_getElem (by simp)
    intro i h1 h2
    rw [List.getElem_zipIdx, List.getElem_map, List.getElem_range, List.getD_eq_getElem _ _ (by simpa using h1), Nat.zero_add]
  rw [e]
  generalize List.range irr.length = l
  induction l generalizing keep with
  | nil => rfl
  | cons i l ih =>
    rw [List.map_cons, List.foldl_cons, ih, List.filter_cons]
    by_cases h : f.contains i = true
    · simp only [h, if_true, Bool.not_true, Bool.false_eq_true, if_false]
    · simp only [h, Bool.false_eq_true, if_false, Bool.not_false, if_true, List.map_cons, List.foldl_cons]

/-- What the recursive call keeps is enough. -/
theorem subKeep_mem {irr : List Irreps} {f g : List ℕ} (hp : (f ++ g).Perm (List.range irr.length)) {keep : Option (List Irrep)} {x a b : Irrep} (hx : ¬ Out keep x) (hb : Poss (axIrs irr g) b)
    (hxa : x ∈ a.mul b) : ¬ Out (subKeep irr f keep) a := by
  rw [subKeep_eq]
  have hnd : (f ++ g).Nodup := hp.nodup_iff.mpr List.nodup_range
  have hdis : ∀ i ∈ f, i ∉ g := fun i hi hj => (List.nodup_append.mp hnd).2.2 i hi i hj rfl
  have h1 : g.Perm ((List.range irr.length).filter fun i => !f.contains i) := by
    have h2 := hp.filter fun i => !f.contains i
    rw [List.filter_append] at h2
    have e1 : f.filter (fun i => !f.contains i) = [] := by
      rw [List.filter_eq_nil_iff]; intro i hi; simp [hi]
    have e2 : g.filter (fun i => !f.contains i) = g := by
      rw [List.filter_eq_self]; intro i hi
      have : i ∉ f := fun h => hdis i h hi
      simp [this]
    rw [e1, e2, List.nil_append] at h2
    exact h2
  exact foldl_mem hx (hb.perm (h1.map _)) (mul_swap_mem hxa)

/-! ### the complement -/

/-- The blocks, and blocks of irreps that are left out, are a complete basis; with `s`, they have the symmetries. -/
def KB (irr : List Irreps) (G : Finset SPerm) (f : List ℕ) (keep : Option (List Irrep)) (s : Prop) (A : List (Irrep × List Ten)) : Prop :=
  ∃ A', (∀ p ∈ A ++ A', BGood irr f p ∧ Poss (axIrs irr f) p.1) ∧ (∀ p ∈ A', Out keep p.1) ∧ OBasis irr G f ((A ++ A').flatMap Prod.snd) ∧
    (s → ∀ z ∈ (A ++ A').flatMap Prod.snd, Symm irr G z)

variable {irr : List Irreps} {G : Finset SPerm} {f g : List ℕ} {keep : Option (List Irrep)} {A B : List (Irrep × List Ten)} {s : Prop}

theorem KB.perm (h : KB irr G f keep s A) (hp : B.Perm A) : KB irr G f keep s B := by
  obtain ⟨A', h1, h2, h3, h4⟩ := h
  have hp' := hp.append_right A'
  have hp2 := List.Perm.flatMap_right Prod.snd hp'
  exact ⟨A', fun p hm => h1 p (hp'.mem_iff.mp hm), h2, h3.perm hp2, fun hs z hz => h4 hs z (hp2.mem_iff.mp hz)⟩

theorem KB.perm_axes (h : KB irr G f keep s A) (hp : f.Perm g) : KB irr G g keep s A := by
  obtain ⟨A', h1, h2, h3, h4⟩ := h
  exact ⟨A', fun p hm => ⟨(h1 p hm).1.perm hp, (h1 p hm).2.perm (hp.map _)⟩, h2, h3.perm_axes hp, h4⟩

theorem KB.imp {s' : Prop} (h : KB irr G f keep s A) (hs : s' → s) : KB irr G f keep s' A := by
  obtain ⟨A', h1, h2, h3, h4⟩ := h
  exact ⟨A', h1, h2, h3, fun h => h4 (hs h)⟩

theorem KB.mono {keep' : Option (List Irrep)} (h : KB irr G f keep s A) (hk : ∀ x, Out keep x → Out keep' x) : KB irr G f keep' s A := by
  obtain ⟨A', h1, h2, h3, h4⟩ := h
  exact ⟨A', h1, fun p hp => hk _ (h2 p hp), h3, h4⟩

open Classical in
/-- A complete basis, cut. -/
theorem KB.of_full {F : List (Irrep × List Ten)} (g : ∀ p ∈ F, BGood irr f p ∧ Poss (axIrs irr f) p.1) (o : OBasis irr G f (F.flatMap Prod.snd)) (hs : s → ∀ z ∈ F.flatMap Prod.snd, Symm irr G z) (keep : Option (List Irrep))
    (hA : A.Perm (F.filter fun p => decide (¬ Out keep p.1))) : KB irr G f keep s A := by
  refine KB.perm ⟨F.filter fun p => !decide (¬ Out keep p.1), ?_, ?_, ?_, ?_⟩ hA
  · intro p hp
    rw [List.mem_append, List.mem_filter, List.mem_filter] at hp
    exact g p (hp.elim And.left And.left)
  · intro p hp
    have := (List.mem_filter.mp hp).2
    simpa using this
  · exact o.perm (List.Perm.flatMap_right Prod.snd (List.filter_append_perm _ F))
  · exact fun h z hz => hs h z ((List.Perm.flatMap_right Prod.snd (List.filter_append_perm _ F)).mem_iff.mp hz)

open Classical in
/-- The products that are kept are the products of what was kept. -/
theorem products_keep {A A' B B' : List (Irrep × List Ten)} (hA : ∀ p ∈ A', ∀ q ∈ B ++ B', ∀ x ∈ p.1.mul q.1, Out keep x) (hB : ∀ p ∈ A ++ A', ∀ q ∈ B', ∀ x ∈ p.1.mul q.1, Out keep x) :
    (products none (A ++ A') (B ++ B')).filter (fun p => decide (¬ Out keep p.1)) = products keep A B := by
  unfold products
  rw [List.flatMap_append, List.filter_append]
  have hz : ∀ (p : Irrep × List Ten) (q : Irrep × List Ten), (∀ x ∈ p.1.mul q.1, Out keep x) →
      ((TP.irsOut none p.1 q.1).map fun ir => (ir, bilinear (algebraMap ℝ Ten (Real.sqrt (2 * (ir.l : ℝ) + 1))) ((realCtx Ten).cg p.1.l q.1.l ir.l) p.1.l q.1.l ir.l p.2 q.2)).filter
        (fun p => decide (¬ Out keep p.1)) = [] := by
    intro p q h
    rw [List.filter_eq_nil_iff]
    intro r hr
    obtain ⟨ir, hir, rfl⟩ := List.mem_map.mp hr
    have := h ir (List.mem_filter.mp hir).1
    simpa using this
  have e2 : (A'.flatMap fun b1 => (B ++ B').flatMap fun b2 => (TP.irsOut none b1.1 b2.1).map fun ir =>
      (ir, bilinear (algebraMap ℝ Ten (Real.sqrt (2 * (ir.l : ℝ) + 1))) ((realCtx Ten).cg b1.1.l b2.1.l ir.l) b1.1.l b2.1.l ir.l b1.2 b2.2)).filter (fun p => decide (¬ Out keep p.1)) = [] := by
    rw [List.filter_flatMap, List.flatMap_eq_nil_iff]
    intro p hp
    rw [List.filter_flatMap, List.flatMap_eq_nil_iff]
    intro q hq
    exact hz p q (hA p hp q hq)
  rw [e2, List.append_nil, List.filter_flatMap]
  apply List.flatMap_congr
  intro p hp
  rw [List.flatMap_append, List.filter_append]
  have e3 : (B'.flatMap fun b2 => (TP.irsOut none p.1 b2.1).map fun ir =>
      (ir, bilinear (algebraMap ℝ Ten (Real.sqrt (2 * (ir.l : ℝ) + 1))) ((realCtx Ten).cg p.1.l b2.1.l ir.l) p.1.l b2.1.l ir.l p.2 b2.2)).filter (fun p => decide (¬ Out keep p.1)) = [] := by
    rw [List.filter_flatMap, List.flatMap_eq_nil_iff]
    intro q hq
    exact hz p q (hB p (by simp [hp]) q hq)
  rw [e3, List.append_nil, List.filter_flatMap]
  apply List.flatMap_congr
  intro q _
  rw [List.filter_map]
  congr 1
  unfold TP.irsOut
  rw [List.filter_filter]
  apply List.filter_congr
  intro x _
  cases keep with
  | none => simp [not_out_none]
  | some l => simp [out_some]

theorem products_poss {A B : List (Irrep × List Ten)} (hA : ∀ p ∈ A, Poss (axIrs irr f) p.1) (hB : ∀ p ∈ B, Poss (axIrs irr g) p.1) {p : Irrep × List Ten} (hp : p ∈ products none A B) :
    Poss (axIrs irr (f ++ g)) p.1 := by
  unfold products at hp
  simp only [List.mem_flatMap, List.mem_map] at hp
  obtain ⟨p1, h1, p2, h2, ir, h3, rfl⟩ := hp
  have e : axIrs irr (f ++ g) = axIrs irr f ++ axIrs irr g := by unfold axIrs; rw [List.map_append]
  rw [e]
  exact (hA p1 h1).append (hB p2 h2) (List.mem_filter.mp h3).1

theorem products_kb {keepA keepB : Option (List Irrep)} (hG : IsSGroup irr.length G) (hfg : ∀ i ∈ f, i ∉ g) (hA : KB irr G f keepA s A) (hB : KB irr G g keepB s B)
    (h1 : ∀ a b x, ¬ Out keep x → Poss (axIrs irr g) b → x ∈ Irrep.mul a b → ¬ Out keepA a) (h2 : ∀ a b x, ¬ Out keep x → Poss (axIrs irr f) a → x ∈ Irrep.mul a b → ¬ Out keepB b)
    (hs : s → ∀ q ∈ G, q.1 = 1) :
    KB irr G (f ++ g) keep s (products keep A B) := by
  classical
  obtain ⟨A', a1, a2, a3, a4⟩ := hA
  obtain ⟨B', b1, b2, b3, b4⟩ := hB
  refine KB.of_full (F := products none (A ++ A') (B ++ B')) ?_ (products_obasis hG hfg (fun p hp => (a1 p hp).1) (fun p hp => (b1 p hp).1) a3 b3)
    (fun h z hz => products_symm (hs h) (fun p hp => (a1 p hp).1.len) (fun p hp => (b1 p hp).1.len) (a4 h) (b4 h) none z hz) keep ?_
  · intro p hp
    exact ⟨products_good hfg none (fun p hp => (a1 p hp).1) (fun p hp => (b1 p hp).1) p hp, products_poss (fun p hp => (a1 p hp).2) (fun p hp => (b1 p hp).2) hp⟩
  · rw [products_keep]
    · intro p hp q hq x hx
      by_contra hk
      exact h1 _ _ x hk (b1 q hq).2 hx (a2 p hp)
    · intro p hp q hq x hx
      by_contra hk
      exact h2 _ _ x hk (a1 p hp).2 hx (b2 q hq)

theorem products_append (A A' B B' : List (Irrep × List Ten)) :
    (products none (A ++ A') (B ++ B')).Perm (products none A B ++ (products none A B' ++ products none A' (B ++ B'))) := by
  unfold products
  rw [List.flatMap_append, ← List.append_assoc]
  refine List.Perm.append_right _ ?_
  simp only [List.flatMap_append]
  exact List.flatMap_append_perm A _ _ |>.symm

/-- The products without a filter. -/
theorem products_kb_none {keepA keepB : Option (List Irrep)} (hG : IsSGroup irr.length G) (hfg : ∀ i ∈ f, i ∉ g) (hA : KB irr G f keepA s A) (hB : KB irr G g keepB s B)
    (h1 : ∀ a b x, ¬ Out keep x → Poss (axIrs irr g) b → x ∈ Irrep.mul a b → ¬ Out keepA a) (h2 : ∀ a b x, ¬ Out keep x → Poss (axIrs irr f) a → x ∈ Irrep.mul a b → ¬ Out keepB b)
    (hs : s → ∀ q ∈ G, q.1 = 1) :
    KB irr G (f ++ g) keep s (products none A B) := by
  obtain ⟨A', a1, a2, a3, a4⟩ := hA
  obtain ⟨B', b1, b2, b3, b4⟩ := hB
  have hp := products_append A A' B B'
  have hp2 := List.Perm.flatMap_right Prod.snd hp
  refine ⟨products none A B' ++ products none A' (B ++ B'), ?_, ?_, ?_, ?_⟩
  · intro p hm
    have hm := hp.mem_iff.mpr hm
    exact ⟨products_good hfg none (fun p hp => (a1 p hp).1) (fun p hp => (b1 p hp).1) p hm, products_poss (fun p hp => (a1 p hp).2) (fun p hp => (b1 p hp).2) hm⟩
  · intro p hm
    by_contra hk
    rcases List.mem_append.mp hm with hm | hm
    · unfold products at hm
      simp only [List.mem_flatMap, List.mem_map] at hm
      obtain ⟨p1, m1, p2, m2, ir, m3, rfl⟩ := hm
      exact h2 _ _ ir hk (a1 p1 (by simp [m1])).2 (List.mem_filter.mp m3).1 (b2 p2 m2)
    · unfold products at hm
      simp only [List.mem_flatMap, List.mem_map] at hm
      obtain ⟨p1, m1, p2, m2, ir, m3, rfl⟩ := hm
      exact h1 _ _ ir hk (b1 p2 m2).2 (List.mem_filter.mp m3).1 (a2 p1 m1)
  · exact (products_obasis hG hfg (fun p hp => (a1 p hp).1) (fun p hp => (b1 p hp).1) a3 b3).perm hp2.symm
  · exact fun h z hz => products_symm (hs h) (fun p hp => (a1 p hp).1.len) (fun p hp => (b1 p hp).1.len) (a4 h) (b4 h) none z (hp2.mem_iff.mpr hz)

/-! ### the steps -/

theorem KB.identity {i : ℕ} (hi : i < irr.length) {b : IArr Ten} (hb : identityBasis i (irr.getD i []) = .ok b) (keep : Option (List Irrep)) : Inv b ∧ KB irr G [i] keep False b.blocks := by
  have hg := identity_good irr hb
  obtain ⟨y, y1, y2, y3, y4⟩ := identityBasis_spec i (irr.getD i [])
  rw [hb] at y1; cases y1
  refine ⟨y2, [], ?_, by simp, ?_, False.elim⟩
  · intro p hp
    rw [List.append_nil] at hp
    refine ⟨hg.2 p hp, ?_⟩
    have h := List.mem_map_of_mem (f := Prod.fst) hp
    rw [blocks_irs] at h
    obtain ⟨m, hm, h⟩ := List.mem_flatMap.mp h
    rw [y3] at hm
    exact ⟨p.1, List.mem_map.mpr ⟨m, hm, (List.eq_of_mem_replicate h).symm⟩, _, rfl, mem_mul_zero _⟩
  · rw [List.append_nil, List.flatMap_def, y2.array_eq_blocks, y4]
    exact identity_obasis irr G hi

theorem KB.place (hG : IsSGroup irr.length G) (hf : f.Pairwise (· < ·)) (hlt : ∀ i ∈ f, i < irr.length)
    (h : KB (f.map fun k => irr.getD k []) (subrepr f G) (List.range f.length) keep s A) (hs : s → ∀ z, On (List.range f.length) z → Symm (f.map fun k => irr.getD k []) (subrepr f G) z → Symm irr G (RTP.place f z)) :
    KB irr G f keep s (A.map fun b => (b.1, b.2.map (place f))) := by
  obtain ⟨A', h1, h2, h3, h4⟩ := h
  have hax : axIrs (f.map fun k => irr.getD k []) (List.range f.length) = axIrs irr f := by
    unfold axIrs
    apply List.ext_getElem (by simp)
    intro i h1 h2
    simp only [List.length_map, List.length_range] at h1
    simp [h1]
  have e : ((A.map fun b => (b.1, b.2.map (RTP.place f))) ++ A'.map fun b => (b.1, b.2.map (RTP.place f))).flatMap Prod.snd = ((A ++ A').flatMap Prod.snd).map (RTP.place f) := by
    rw [← List.map_append, List.flatMap_map, List.map_flatMap]
  have hon : ∀ x ∈ (A ++ A').flatMap Prod.snd, On (List.range f.length) x := by
    intro x hx
    obtain ⟨q, hq, hx⟩ := List.mem_flatMap.mp hx
    exact (h1 q hq).1.on x hx
  refine ⟨A'.map fun b => (b.1, b.2.map (RTP.place f)), ?_, ?_, ?_, ?_⟩
  · intro p hp
    rw [← List.map_append] at hp
    obtain ⟨q, hq, rfl⟩ := List.mem_map.mp hp
    refine ⟨place_good (hf.imp Nat.ne_of_lt) (h1 q hq).1, ?_⟩
    rw [← hax]; exact (h1 q hq).2
  · intro p hp
    obtain ⟨q, hq, rfl⟩ := List.mem_map.mp hp
    exact h2 q hq
  · rw [e]
    exact place_obasis hG hf hlt hon h3
  · intro h z hz
    rw [e] at hz
    obtain ⟨x, hx, rfl⟩ := List.mem_map.mp hz
    exact hs h x (hon x hx) (h4 h x hx)

/-- An array with given blocks. -/
theorem exists_array (A : List (Irrep × List Ten)) (h : ∀ p ∈ A, p.2.length = p.1.dim) : ∃ x : IArr Ten, Inv x ∧ x.irreps = A.map (fun p => ⟨1, p.1⟩) ∧ x.blocks = A := by
  have hs : Shaped (A.map fun p => ((⟨1, p.1⟩ : MulIrrep), (some [p.2] : Chunk Ten))) := by
    intro q hq
    obtain ⟨p, hp, rfl⟩ := List.mem_map.mp hq
    simp [shapeOk, h p hp]
  obtain ⟨w, w1, w2, w3, w4, w5, w6, w7, w8⟩ := fromChunks_pairs _ hs
  refine ⟨w, w2, by rw [w3, List.map_map]; rfl, ?_⟩
  rw [w2.blocks_pairs, w3, w7, List.zip_map']
  simp only [List.map_id', Prod.mk.eta, List.flatMap_map]
  have : ∀ B : List (Irrep × List Ten), (∀ p ∈ B, p ∈ A) → (B.flatMap fun p => blk ((⟨1, p.1⟩ : MulIrrep), (some [p.2] : Chunk Ten))) = B := by
    intro B hB
    induction B with
    | nil => rfl
    | cons p B ih =>
      rw [List.flatMap_cons, ih fun q hq => hB q (by simp [hq])]
      have := hs _ (List.mem_map_of_mem (hB p (by simp)))
      rw [blk_some this]
      rfl
  exact this A fun _ h => h

/-- The blocks of one irrep after the constraint. -/
noncomputable def mixed (eigh : Eigh) (eps : ℝ) (dims : List ℕ) (Q : List (List ℝ)) (rb : List (List Ten)) (ir : Irrep) : List (Irrep × List Ten) :=
  (mix ir.dim (basisIntersection eigh eps (firstComponents dims rb) (permOpt (firstComponents dims rb) (Q.map (ofRow dims)))).1 rb).map fun r => (ir, r)

theorem mixed_nil {eigh : Eigh} (hE : EighOk eigh) {eps : ℝ} (h0 : 0 < eps) (h1 : eps ≤ 1) (hG : IsSGroup irr.length G) (hI : SameIrreps irr G)
    {Q : List (List ℝ)} (hQ : IndexSymmetry.IsOrthonormalBasis (irr.map Irreps.dim) Q (Sym G (irr.map Irreps.dim))) (ir : Irrep) : mixed eigh eps (irr.map Irreps.dim) Q [] ir = [] := by
  obtain ⟨h, -⟩ := intersection_copies hE h0 h1 hG hI hQ (ir := ir) (R := firstComponents (irr.map Irreps.dim) []) (B := fun u => absurd u.2 (by simp [firstComponents]))
    ⟨fun u => absurd u.2 (by simp [firstComponents]), fun u => absurd u.2 (by simp [firstComponents]), fun u => absurd u.2 (by simp [firstComponents])⟩
    (fun u => absurd u.2 (by simp [firstComponents])) (by simp [firstComponents])
  unfold mixed mix
  rw [List.map_eq_nil_iff, List.map_eq_nil_iff]
  have h2 := (orthonormal_iff.mp h).2
  by_contra hne
  obtain ⟨a, ha⟩ := List.exists_mem_of_ne_nil _ hne
  have := h2 a ha
  rw [dotProduct, Finset.sum_eq_zero (fun u _ => absurd u.2 (by simp [firstComponents]))] at this
  exact zero_ne_one this

theorem flatMap_nonempty {α β : Type} (l : List α) (F : α → List β) (P : α → Bool) (h : ∀ a ∈ l, P a = false → F a = []) : l.flatMap F = (l.filter P).flatMap F := by
  induction l with
  | nil => rfl
  | cons a l ih =>
    rw [List.flatMap_cons, ih fun b hb => h b (by simp [hb]), List.filter_cons]
    cases e : P a
    · rw [h a (by simp) e]; simp
    · simp

theorem mem_distinct {x : Irreps} {ir : Irrep} : ir ∈ distinctIrreps x ↔ ∃ m ∈ x, m.ir = ir := by
  unfold distinctIrreps
  rw [(pySorted_perm _ _).mem_iff, List.mem_eraseDups, List.mem_map]

theorem distinct_nodup (x : Irreps) : (distinctIrreps x).Nodup := (pySorted_perm _ _).nodup_iff.mpr (nodup_eraseDups _)

theorem constrain_kb {eigh : Eigh} (hE : EighOk eigh) {eps : ℝ} (h0 : 0 < eps) (h1 : eps ≤ 1) (hn : 4 * ((irr.map Irreps.dim).prod : ℝ) * eps ^ 2 < 1) (hG : IsSGroup irr.length G) (hI : SameIrreps irr G)
    {Q : List (List ℝ)} (hQ : IndexSymmetry.IsOrthonormalBasis (irr.map Irreps.dim) Q (Sym G (irr.map Irreps.dim))) {x : IArr Ten} (ix : Inv x)
    (hk : ∀ p ∈ x.blocks, ¬ Out keep p.1) (hB : KB irr G (List.range irr.length) keep False x.blocks) {y : IArr Ten}
    (hy : y.blocks = (distinctIrreps x.irreps).flatMap fun ir => (mix ir.dim (coefs eigh eps (irr.map Irreps.dim) x Q ir) (rotBasis x ir)).map fun r => (ir, r)) :
    KB irr G (List.range irr.length) keep True y.blocks ∧ ∀ p ∈ y.blocks, ¬ Out keep p.1 := by
  classical
  obtain ⟨A', a1, a2, a3, -⟩ := hB
  obtain ⟨xf, f1, f2, f3⟩ := exists_array (x.blocks ++ A') fun p hp => (a1 p hp).1.len
  obtain ⟨yf, -, g2, g3⟩ := constrain_spec eigh eps (irr.map Irreps.dim) (x := xf) Q
  obtain ⟨c1, c2⟩ := constrain_obasis hE h0 h1 hn hG hI hQ f1 (by rw [f3]; exact fun p hp => (a1 p hp).1) (by rw [f3]; exact a3) g3
  have hy' : y.blocks = (distinctIrreps x.irreps).flatMap fun ir => mixed eigh eps (irr.map Irreps.dim) Q (rotBasis x ir) ir := hy
  have g3' : yf.blocks = (distinctIrreps xf.irreps).flatMap fun ir => mixed eigh eps (irr.map Irreps.dim) Q (rotBasis xf ir) ir := g3
  have hir : ∀ rb ir, ∀ p ∈ mixed eigh eps (irr.map Irreps.dim) Q rb ir, p.1 = ir := by
    intro rb ir p hp
    obtain ⟨r, -, rfl⟩ := List.mem_map.mp hp
    rfl
  have hrot : ∀ ir, ¬ Out keep ir → rotBasis xf ir = rotBasis x ir := by
    intro ir hi
    rw [rotBasis_blocks f1, rotBasis_blocks ix, f3, List.filter_append]
    have : A'.filter (fun b => decide (b.1 = ir)) = [] := by
      rw [List.filter_eq_nil_iff]
      intro p hp
      have := a2 p hp
      rw [decide_eq_true_iff]
      intro e; rw [e] at this; exact hi this
    rw [this, List.append_nil]
  have hempty : ∀ ir, (¬ ∃ p ∈ x.blocks, p.1 = ir) → rotBasis x ir = [] := by
    intro ir h
    rw [rotBasis_blocks ix, List.map_eq_nil_iff, List.filter_eq_nil_iff]
    intro p hp
    rw [decide_eq_true_iff]
    exact fun e => h ⟨p, hp, e⟩
  have hxb : ∀ p ∈ x.blocks, p.1 ∈ distinctIrreps x.irreps := by
    intro p hp
    have h := List.mem_map_of_mem (f := Prod.fst) hp
    rw [blocks_irs] at h
    obtain ⟨m, hm, h⟩ := List.mem_flatMap.mp h
    exact mem_distinct.mpr ⟨m, hm, (List.eq_of_mem_replicate h).symm⟩
  have hxf : ∀ ir, ir ∈ distinctIrreps xf.irreps ↔ ∃ p ∈ x.blocks ++ A', p.1 = ir := by
    intro ir
    rw [mem_distinct, f2]
    simp only [List.mem_map, exists_exists_and_eq_and]
  -- the kept part
  have hperm : y.blocks.Perm (yf.blocks.filter fun p => decide (¬ Out keep p.1)) := by
    rw [g3', List.filter_flatMap]
    have e1 : (distinctIrreps xf.irreps).flatMap (fun ir => (mixed eigh eps (irr.map Irreps.dim) Q (rotBasis xf ir) ir).filter fun p => decide (¬ Out keep p.1)) =
        ((distinctIrreps xf.irreps).filter fun ir => decide (¬ Out keep ir)).flatMap fun ir => mixed eigh eps (irr.map Irreps.dim) Q (rotBasis x ir) ir := by
      rw [flatMap_nonempty _ _ (fun ir => decide (¬ Out keep ir))]
      · apply List.flatMap_congr
        intro ir hi
        have hi := (List.mem_filter.mp hi).2
        rw [decide_eq_true_iff] at hi
        rw [hrot ir hi, List.filter_eq_self]
        intro p hp
        rw [hir _ _ p hp]
        simpa using hi
      · intro ir _ hi
        rw [List.filter_eq_nil_iff]
        intro p hp
        rw [hir _ _ p hp]
        simpa using hi
    rw [e1, hy', flatMap_nonempty (distinctIrreps x.irreps) _ (fun ir => decide (∃ p ∈ x.blocks, p.1 = ir))]
    · refine List.Perm.flatMap_right _ ((List.perm_ext_iff_of_nodup ((distinct_nodup _).filter _) ((distinct_nodup _).filter _)).mpr fun ir => ?_)
      rw [List.mem_filter, List.mem_filter, hxf, decide_eq_true_iff, decide_eq_true_iff]
      constructor
      · rintro ⟨-, p, hp, rfl⟩
        exact ⟨⟨p, by simp [hp], rfl⟩, hk p hp⟩
      · rintro ⟨⟨p, hp, rfl⟩, ho⟩
        rcases List.mem_append.mp hp with hp | hp
        · exact ⟨hxb p hp, p, hp, rfl⟩
        · exact absurd (a2 p hp) ho
    · intro ir _ h
      rw [hempty ir (by simpa using h)]
      exact mixed_nil hE h0 h1 hG hI hQ ir
  refine ⟨KB.of_full (F := yf.blocks) ?_ c1 (fun _ => c2) keep hperm, ?_⟩
  · intro q hq
    rw [g3] at hq
    obtain ⟨ir, hi, hq⟩ := List.mem_flatMap.mp hq
    obtain ⟨r, hr, rfl⟩ := List.mem_map.mp hq
    refine ⟨?_, ?_⟩
    · refine mix_good ?_ (by simp [firstComponents]) _ r hr
      intro r' hr'
      rw [rotBasis_blocks f1] at hr'
      obtain ⟨q', hq', rfl⟩ := List.mem_map.mp hr'
      obtain ⟨m1, m2⟩ := List.mem_filter.mp hq'
      rw [f3] at m1
      have := (a1 q' m1).1
      rw [decide_eq_true_iff] at m2
      rw [← m2]; exact this
    · obtain ⟨p, hp, rfl⟩ := (hxf ir).mp hi
      exact (a1 p hp).2
  · intro p hp
    have := (List.mem_filter.mp (hperm.mem_iff.mp hp)).2
    simpa using this

/-! ### the algorithm -/

theorem KB.regroup {b y : IArr Ten} (h : KB irr G f keep s b.blocks) (hk : ∀ p ∈ b.blocks, ¬ Out keep p.1) (hi : Inv b) (hy : b.regroup = .ok y) :
    Inv y ∧ KB irr G f keep s y.blocks ∧ (∀ p ∈ y.blocks, ¬ Out keep p.1) := by
  obtain ⟨z, z1, z2, z3, -⟩ := C17_regroup b hi.coherent
  rw [hy] at z1; cases z1
  exact ⟨z2.inv, h.perm z3, fun p hp => hk p (z3.mem_iff.mp hp)⟩

/-- What a call returns. -/
structure Kept (irr : List Irreps) (G : Finset SPerm) (keep : Option (List Irrep)) (y : IArr Ten) : Prop where
  inv : Inv y
  kb : KB irr G (List.range irr.length) keep (irr.length ≠ 1) y.blocks
  kept : ∀ p ∈ y.blocks, ¬ Out keep p.1

theorem basis_kept {eigh : Eigh} (hE : EighOk eigh) {eps : ℝ} (h0 : 0 < eps) (h1 : eps ≤ 1) {opt : Optimized} {flag : Bool} (Q : List Irreps → Finset SPerm → Prop)
    (hQ : ∀ irr G f, Q irr G → f.Pairwise (· < ·) → (∀ i ∈ f, i < irr.length) → Q (f.map fun k => irr.getD k []) (subrepr f G))
    (hopt : ∀ irr G keep y, Q irr G → Pre eps irr G → useOptimized flag irr G = true → opt (irr.headD []) irr.length keep = .ok y → Kept irr G keep y)
    {fuel : ℕ} {irr : List Irreps} {G : Finset SPerm} {keep : Option (List Irrep)} {y : IArr Ten}
    (hq : Q irr G) (hP : Pre eps irr G) (h : basis eigh eps opt flag fuel irr G keep = some (.ok y)) : Kept irr G keep y := by
  refine basis_ind (fun irr G keep y => Q irr G → Pre eps irr G → Kept irr G keep y)
    (fun irr G keep f b => Q irr G → Pre eps irr G → Inv b ∧ KB irr G f (subKeep irr f keep) False b.blocks)
    (fun i irreps => by obtain ⟨b, h, -⟩ := identityBasis_spec i irreps; exact ⟨b, h⟩) ?_ ?_ ?_ ?_ ?_ fuel irr G keep y h hq hP
  · intro irr G keep y hu hy hq hP
    exact hopt irr G keep y hq hP hu hy
  · intro irr G keep i b hi hb _ _
    exact KB.identity hi hb _
  · intro irr G keep b y hn hb hy hq hP
    obtain ⟨ib, kb⟩ := hb hq hP
    have hs : subKeep irr [0] keep = keep := by
      rw [subKeep_eq, hn]; rfl
    rw [hs] at kb
    unfold finishOne at hy
    rw [if_neg (by simp)] at hy
    cases keep with
    | none =>
      simp only [bind, Except.bind] at hy
      obtain ⟨r1, r2, r3⟩ := kb.regroup (fun p _ => not_out_none _) ib hy
      exact ⟨r1, by rw [hn]; exact r2.imp fun h => absurd rfl h, r3⟩
    | some l =>
      obtain ⟨z, z1, z2, z3⟩ := filter_blocks ib l
      simp only [bind, Except.bind, z1] at hy
      have hz : KB irr G [0] (some l) False z.blocks := by
        classical
        obtain ⟨A', a1, a2, a3, -⟩ := kb
        refine KB.of_full (F := b.blocks ++ A') a1 a3 False.elim _ ?_
        rw [List.filter_append, z3]
        have e : A'.filter (fun p => decide (¬ Out (some l) p.1)) = [] := by
          rw [List.filter_eq_nil_iff]
          intro p hp
          simpa using a2 p hp
        rw [e, List.append_nil]
        refine List.Perm.of_eq (List.filter_congr fun p _ => ?_)
        simp [out_some]
      obtain ⟨r1, r2, r3⟩ := hz.regroup (fun p hp => by
        rw [z3] at hp
        rw [out_some, not_not]
        simpa using (List.mem_filter.mp hp).2) z2 hy
      exact ⟨r1, by rw [hn]; exact r2.imp fun h => absurd rfl h, r3⟩
  · intro irr G keep a b y ha hb na nb hp ga gb hy hq hP
    obtain ⟨ia, ka⟩ := ga hq hP
    obtain ⟨ib, kb⟩ := gb hq hP
    have hnd : (a.1 ++ b.1).Nodup := hp.nodup_iff.mpr List.nodup_range
    have hdis : ∀ i ∈ a.1, i ∉ b.1 := fun i hi hj => (List.nodup_append.mp hnd).2.2 i hi i hj rfl
    obtain ⟨ab, ab1, ab2, ab3⟩ := reduceBasisProduct_spec keep ia ib
    have kab : KB irr G (List.range irr.length) keep False ab.blocks := by
      refine ((products_kb hP.group hdis ka kb ?_ ?_ False.elim).perm ab3).perm_axes hp
      · intro x y z hz hy hxy
        exact subKeep_mem hp hz hy hxy
      · intro x y z hz hx hxy
        exact subKeep_mem (List.perm_append_comm.trans hp) hz hx (mul_comm_mem hxy)
    have kk : ∀ p ∈ ab.blocks, ¬ Out keep p.1 := by
      intro p hp
      have hp := ab3.mem_iff.mp hp
      unfold products at hp
      simp only [List.mem_flatMap, List.mem_map] at hp
      obtain ⟨b1, -, b2, -, ir, h3, rfl⟩ := hp
      have := (List.mem_filter.mp h3).2
      cases keep with
      | none => exact not_out_none _
      | some l => rw [out_some, not_not]; simpa using this
    have hlt : ∀ i ∈ a.1 ++ b.1, i < irr.length := fun i hi => List.mem_range.mp (hp.mem_iff.mp hi)
    have hu : union irr.length a.1 b.1 = List.range irr.length :=
      sorted_eq_range (union_sorted _ _ _) ((union_perm (fun i hi => hlt i (by simp [hi])) (fun i hi => hlt i (by simp [hi])) hnd).trans hp)
    unfold finishTwo at hy
    simp only [bind, Except.bind, ab1, hu] at hy
    split at hy
    · rename_i hc
      rw [subrepr_range hP.group] at hc
      obtain ⟨r1, ⟨A', a1, a2, a3, -⟩, r3⟩ := kab.regroup kk ab2 hy
      exact ⟨r1, ⟨A', a1, a2, a3, fun _ z _ => symm_of_card_one hP.group hc z⟩, r3⟩
    · rename_i hc
      split at hy
      · cases hy
      · obtain ⟨Q, Q1, Q2⟩ := reduceSubgroup_range hP.group (by simp) (hP.same.compat hP.group)
        rw [Q1] at hy
        simp only at hy
        obtain ⟨z, z1, z2, z3⟩ := constrain_spec eigh eps (irr.map Irreps.dim) (x := ab) Q
        rw [z1] at hy
        obtain ⟨c1, c3⟩ := constrain_kb hE h0 h1 hP.small hP.group hP.same (Q2 hc) ab2 kk kab z3
        obtain ⟨r1, r2, r3⟩ := c1.regroup c3 z2 hy
        exact ⟨r1, r2.imp fun _ => trivial, r3⟩
  · intro irr G keep f ab ab' hf hlt h2 hab hm hq hP
    obtain ⟨i, k, -⟩ := hab (hQ irr G f hq hf hlt) (hP.sub hf hlt)
    rw [List.length_map] at k
    obtain ⟨z, z1, z2, z3, z4⟩ := mapCols_blocks (φ := place f) rfl i
    rw [hm] at z1; cases z1
    refine ⟨z2, ?_⟩
    rw [z4]
    exact KB.place hP.group hf hlt (k.imp False.elim) False.elim

end E3nn.RTP

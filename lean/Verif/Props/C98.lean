import Verif.Lemmas.SymTP
import Verif.Props.C97

/-!
# C98: `SymmetricTensorProduct`
-/

namespace E3nn.SymTP

open E3nn.RTP E3nn.IArr E3nn.PermRepr E3nn.Wig E3nn.LinAlg Finset

variable {C : Type}

/-! ### the bases -/

theorem symmetric_good {eigh : Eigh} {eps : ℝ} {fuel : ℕ} {x : Irreps} {n : ℕ} {keep : Option (List Irrep)} {B : IArr Ten}
    (h : symmetricBasis eigh eps (optimized eigh eps) true fuel x n keep = some (.ok B)) : Good (List.replicate n x) (List.range n) B := by
  have hG : IsSGroup (List.replicate n x).length (symmetricPermRepr n) := by rw [List.length_replicate]; exact symmetric_group
  have := basis_good (fun irr G => IsSGroup irr.length G ∧ SameIrreps irr G) (by
    rintro irr G f ⟨h1, h2⟩ hf hlt
    exact ⟨by rw [List.length_map]; exact subrepr_group h1 hlt hf, h2.sub h1 hf hlt⟩)
    (fun irr G keep y hq hu hy => optimized_good hq.2 hu hy) ⟨hG, same_replicate symmetric_group x⟩ h
  rwa [List.length_replicate] at this

/-- Strictly sorted irreps. -/
def Strict (x : Irreps) : Prop := x.Pairwise fun a b => a.ir.lt b.ir = true

theorem Strict.nodup {x : Irreps} (h : Strict x) : (x.map MulIrrep.ir).Nodup := by
  unfold List.Nodup
  rw [List.pairwise_map]
  refine h.imp ?_
  intro a b hab e
  rw [e] at hab
  have := (Irrep.lt_iff_enc _ _).mp hab
  omega

theorem make_irreps {α : Type} {i : Irreps} {a : List α} {z : Option (List Bool)} {c : Option (List (Chunk α))} {y : IArr α} (h : IArr.make i a z c = .ok y) : y.irreps = i := by
  unfold IArr.make at h
  grind

theorem fromChunks_irreps {α : Type} [Zero α] {i : Irreps} {c : List (Chunk α)} {y : IArr α} (h : IArr.fromChunks i c = .ok y) : y.irreps = i := by
  unfold IArr.fromChunks at h
  split at h
  · cases h
  · split at h
    · cases h
    · split at h
      · cases h
      · exact make_irreps h

theorem rechunk_irreps {α : Type} [Zero α] {x y : IArr α} {n : Irreps} (h : x.rechunk n = .ok y) : y.irreps = n := by
  unfold IArr.rechunk at h
  split at h
  · cases h
  · split at h
    · rename_i e; cases h; exact e
    · simp only at h
      split at h
      · exact make_irreps h
      · split at h
        · cases h
        · exact make_irreps h

theorem sort_irreps {x y : IArr Ten} (h : x.sort = .ok y) : y.irreps = Irreps.sortIrreps x.irreps := by
  unfold IArr.sort at h
  rw [Irreps.sort_eq] at h
  simp only [bind, Except.bind] at h
  split at h
  · cases h
  · exact fromChunks_irreps h

theorem regroup_strict {b y : IArr Ten} (h : b.regroup = .ok y) : Strict y.irreps := by
  unfold IArr.regroup at h
  cases hs : b.sort with
  | error e => rw [hs] at h; cases h
  | ok s =>
    rw [hs] at h
    simp only [bind, Except.bind] at h
    unfold IArr.simplify at h
    rw [rechunk_irreps h, sort_irreps hs]
    exact Irreps.simplify_sorted (Irreps.sortIrreps_sorted _)

theorem optimized_strict {pow : Power} {x : Irreps} {d : ℕ} {keep : Option (List Irrep)} {y : IArr Ten} (h : optimizedWith pow x d keep = .ok y) : Strict y.irreps := by
  unfold optimizedWith at h
  simp only [bind, Except.bind] at h
  split at h
  · cases h
  · split at h
    · cases h
    · split at h
      · cases h
      · split at h
        · cases h
        · rename_i s hs
          rw [show y.irreps = s.irreps.simplify from make_irreps h, sort_irreps hs]
          exact Irreps.simplify_sorted (Irreps.sortIrreps_sorted _)

theorem basis_strict {eigh : Eigh} {eps : ℝ} {flag : Bool} {fuel : ℕ} {irr : List Irreps} {G : Finset SPerm} {keep : Option (List Irrep)} {y : IArr Ten}
    (h : basis eigh eps (optimized eigh eps) flag fuel irr G keep = some (.ok y)) : Strict y.irreps := by
  refine basis_ind (fun _ _ _ y => Strict y.irreps) (fun _ _ _ _ _ => True)
    (fun i irreps => by obtain ⟨b, h, -⟩ := identityBasis_spec i irreps; exact ⟨b, h⟩) (fun irr G keep y hu hy => optimized_strict hy)
    (fun _ _ _ _ _ _ _ => trivial) ?_ ?_ (fun _ _ _ _ _ _ _ _ _ _ _ => trivial) fuel irr G keep y h
  · intro irr G keep b y hn hb hy
    unfold finishOne at hy
    split at hy
    · cases hy
    · cases keep with
      | none => simp only [bind, Except.bind] at hy; exact regroup_strict hy
      | some l =>
        simp only [bind, Except.bind] at hy
        split at hy
        · cases hy
        · exact regroup_strict hy
  · intro irr G keep a b y _ _ _ _ _ _ _ hy
    unfold finishTwo at hy
    simp only [bind, Except.bind] at hy
    split at hy
    · cases hy
    · split at hy
      · exact regroup_strict hy
      · split at hy
        · cases hy
        · split at hy
          · cases hy
          · split at hy
            · cases hy
            · exact regroup_strict hy

/-! ### the value -/

theorem row_on {x : Irreps} {n : ℕ} {B : IArr Ten} (h : Good (List.replicate n x) (List.range n) B) (ir : Irrep) (k i : ℕ) : On (List.range n) (((rowsOf B ir).getD k []).getD i 0) := by
  have h0 : On (List.range n) (0 : Ten) := fun _ _ _ => rfl
  by_cases hk : k < (rowsOf B ir).length
  · rw [List.getD_eq_getElem _ _ hk]
    obtain ⟨b, hb, e⟩ := List.mem_map.mp (List.getElem_mem hk)
    rw [← e]
    by_cases hi : i < b.2.length
    · rw [List.getD_eq_getElem _ _ hi]
      exact (h.2 b (List.mem_filter.mp hb).1).on _ (List.getElem_mem hi)
    · rw [List.getD_eq_default _ _ (by omega)]; exact h0
  · rw [List.getD_eq_default _ [] (by omega)]; simpa using h0

theorem part_sum {κ : Type} (d r s : ℕ) (x : ℕ → ℝ) (S : Finset κ) (t : κ → Ten) : part d r s x (∑ k ∈ S, t k) = ∑ k ∈ S, part d r s x (t k) := by
  unfold part
  rw [Finset.sum_mul, axSum_sum]

theorem part_smul (d r s : ℕ) (x : ℕ → ℝ) (a : ℝ) (t : Ten) : part d r s x (a • t) = a • part d r s x t := by
  unfold part
  rw [smul_mul_assoc, axSum_smul]

theorem val_zero {S : List ℕ} {B : ℕ → IArr Ten} {x : IArr (C → ℝ)} (hS : ∀ r ∈ S, r ≠ 0) (hB : ∀ r ∈ S, Good (List.replicate r x.irreps) (List.range r) (B r)) (w : Weights C) (ir : Irrep) (i : ℕ) (c : C) (σ : ℕ → ℕ) :
    val S.toFinset B w x 0 ir i c σ = output S B x.irreps.dim (fun r k => w r ir k c) ir i (vec x c) := by
  unfold val output
  have e : S.toFinset.filter (0 < ·) = S.toFinset := by
    rw [Finset.filter_eq_self]
    intro r hr
    exact Nat.pos_of_ne_zero (hS r (List.mem_toFinset.mp hr))
  rw [e, Finset.sum_apply]
  refine Finset.sum_congr rfl fun r hr => ?_
  rw [List.mem_toFinset] at hr
  unfold coef
  rw [part_sum, Finset.sum_apply]
  refine Finset.sum_congr rfl fun k _ => ?_
  rw [part_smul, part_smul, Pi.smul_apply, Pi.smul_apply, part_full _ (row_on (hB r hr) ir k i), smul_eq_mul, smul_eq_mul]
  ring

theorem pySorted_strict {l : List Irrep} (h : l.Nodup) : (pySorted Irrep.lt l).Pairwise fun a b => a.lt b = true := by
  have h1 := pySorted_pairwise Irrep.lt (fun a b hab => by
    rw [Irrep.lt_iff_enc] at hab
    rw [Bool.eq_false_iff, ne_eq, Irrep.lt_iff_enc]; omega) (fun a b c h1 h2 => by
    rw [Bool.eq_false_iff, ne_eq, Irrep.lt_iff_enc] at *; omega) l
  have h2 : (pySorted Irrep.lt l).Nodup := (pySorted_perm _ _).nodup_iff.mpr h
  refine (h1.and h2).imp ?_
  rintro a b ⟨p, q⟩
  rw [Bool.eq_false_iff, ne_eq, Irrep.lt_iff_enc] at p
  rw [Irrep.lt_iff_enc]
  rcases Nat.lt_or_ge a.enc b.enc with h | h
  · exact h
  · exact absurd (Irrep.enc_inj (by omega)) q

theorem call_spec {orders : List ℕ} (hne : orders ≠ []) (h0 : ∀ r ∈ orders, r ≠ 0) {U : ℕ → Except PyErr (IArr Ten)} {B : ℕ → IArr Ten} {x : IArr (C → ℝ)}
    (hU : ∀ r, 1 ≤ r → (∃ s ∈ orders, r ≤ s) → U r = .ok (B r) ∧ Good (List.replicate r x.irreps) (List.range r) (B r) ∧ Strict (B r).irreps) (w : Weights C) :
    ∃ y, call orders U w x = .ok y ∧ y.Coherent ∧ Strict y.irreps ∧ (∀ mi ∈ y.irreps, mi.mul = 1) ∧
      (∀ ir, ir ∈ y.irreps.map MulIrrep.ir ↔ ∃ r ∈ orders, ir ∈ (B r).irreps.map MulIrrep.ir) ∧
      y.blocks = y.irreps.map fun mi => (mi.ir, (List.range mi.ir.dim).map fun i c => output orders B x.irreps.dim (fun r k => w r mi.ir k c) mi.ir i (vec x c)) := by
  obtain ⟨m, hm⟩ : ∃ m, orders.max? = some m := by
    cases h : orders.max? with
    | none => exact absurd (List.max?_eq_none_iff.mp h) hne
    | some m => exact ⟨m, rfl⟩
  obtain ⟨hm1, hm2⟩ := List.max?_eq_some_iff.mp hm
  have hB : Bases m U B := ⟨fun r h1 h2 => (hU r h1 ⟨m, hm1, h2⟩).1, fun r h1 h2 => (hU r h1 ⟨m, hm1, h2⟩).2.1.1, fun r h1 h2 => (hU r h1 ⟨m, hm1, h2⟩).2.2.nodup⟩
  have hg : ∀ r ∈ orders, Good (List.replicate r x.irreps) (List.range r) (B r) := fun r hr => (hU r (by have := h0 r hr; omega) ⟨r, hr, le_refl _⟩).2.1
  obtain ⟨out, o1, o2, o3⟩ := loop_spec hm2 hB w x m (le_refl _) [] ⟨by simp, fun ir => ⟨by
    rintro ⟨s, hs, h, -⟩; have := hm2 s hs; omega, fun _ => rfl⟩⟩
  -- the irreps of the output
  let irs := pySorted Irrep.lt (out.map Prod.fst)
  have hirs : ∀ ir, ir ∈ irs ↔ ∃ r ∈ orders, ir ∈ (B r).irreps.map MulIrrep.ir := by
    intro ir
    rw [(pySorted_perm _ _).mem_iff]
    constructor
    · intro h
      by_contra hc
      refine look_eq_none.mp ((o3 ir).2 ?_) h
      rintro ⟨s, a, -, b⟩
      exact hc ⟨s, a, b⟩
    · rintro ⟨s, a, b⟩
      by_contra hc
      rw [← look_eq_none, (o3 ir).1 ⟨s, a, Nat.pos_of_ne_zero (h0 s a), b⟩] at hc
      cases hc
  let rows : Irrep → List (C → ℝ) := fun ir => (List.range ir.dim).map fun i c => output orders B x.irreps.dim (fun r k => w r ir k c) ir i (vec x c)
  have hlook : ∀ ir ∈ irs, ((look out ir).map fun e => [e.2.map fun t c => t c fun _ => 0]) = some [rows ir] := by
    intro ir hir
    obtain ⟨s, a, b⟩ := (hirs ir).mp hir
    rw [(o3 ir).1 ⟨s, a, Nat.pos_of_ne_zero (h0 s a), b⟩, Option.map_some, List.map_map]
    congr 2
    apply List.map_congr_left
    intro i _
    funext c
    exact val_zero h0 hg w ir i c _
  let ps : List (MulIrrep × Chunk (C → ℝ)) := irs.map fun ir => (⟨1, ir⟩, some [rows ir])
  have hps : Shaped ps := by
    intro p hp
    obtain ⟨ir, -, rfl⟩ := List.mem_map.mp hp
    simp [shapeOk, rows]
  obtain ⟨y, y1, y2, y3, -, -, -, y4, -⟩ := fromChunks_pairs ps hps
  have e1 : ps.map Prod.fst = irs.map fun ir => ⟨1, ir⟩ := by simp [ps]
  have e2 : ps.map Prod.snd = irs.map fun ir => (look out ir).map fun e => [e.2.map fun t c => t c fun _ => 0] := by
    simp only [ps, List.map_map]
    apply List.map_congr_left
    intro ir hir
    exact (hlook ir hir).symm
  rw [e1] at y3
  have hstrict : irs.Pairwise fun a b => a.lt b = true := pySorted_strict o2
  refine ⟨y, ?_, y2.coherent, ?_, ?_, ?_, ?_⟩
  · unfold call
    rw [if_neg (by
      rw [List.any_eq_true]
      rintro ⟨r, hr, h⟩
      exact h0 r hr (by simpa using h)), hm]
    simp only [bind, Except.bind]
    rw [o1]
    simp only
    rw [← e1, ← e2] at *
    exact y1
  · rw [y3]
    unfold Strict
    rw [List.pairwise_map]
    exact hstrict
  · rw [y3]
    intro mi hmi
    obtain ⟨ir, -, rfl⟩ := List.mem_map.mp hmi
    rfl
  · intro ir
    rw [y3, List.map_map, ← hirs]
    simp [Function.comp_def]
  · rw [y2.blocks_pairs, y3, y4, ← e1, show (ps.map Prod.fst).zip (ps.map Prod.snd) = ps by rw [List.zip_map']; simp, List.map_map]
    simp only [ps, List.flatMap_map, List.map_map]
    rw [List.flatMap_def]
    have : irs.map (fun ir => blk (⟨1, ir⟩, some [rows ir])) = irs.map fun ir => [(ir, rows ir)] := by
      apply List.map_congr_left
      intro ir hir
      rw [blk_some (hps (⟨1, ir⟩, some [rows ir]) (List.mem_map.mpr ⟨ir, hir, rfl⟩))]
      rfl
    rw [this, ← List.flatMap_def]
    clear * -
    induction irs with
    | nil => rfl
    | cons a l ih => rw [List.flatMap_cons, ih]; rfl

/-! ### equivariance -/

theorem onAxes_pw {d : ℕ} (M : ℕ → ℕ → ℝ) (x : ℕ → ℝ) : ∀ {f : List ℕ}, f.Nodup → onAxes (fun _ => d) (fun _ => M) f (pw f x) = pw f fun j => ∑ k ∈ range d, M j k * x k
  | [], _ => rfl
  | n :: f, hf => by
    rw [List.nodup_cons] at hf
    have ih := onAxes_pw (d := d) M x hf.2
    have e : onAxes (fun _ => d) (fun _ => M) (n :: f) (pw (n :: f) x) = onAxes (fun _ => d) (fun _ => M) [n] (lift n x) * onAxes (fun _ => d) (fun _ => M) f (pw f x) := by
      rw [pw_cons, show n :: f = [n] ++ f from rfl]
      exact onAxes_mul _ _ (fun i hi => by rw [List.mem_singleton] at hi; rw [hi]; exact hf.1) (lift_on n x) (pw_on f x)
    rw [e, ih, pw_cons]
    congr 1
    funext σ
    simp [onAxes, onAxis, lift]

theorem onAxes_congr_axes {d d' : ℕ → ℕ} {M M' : ℕ → ℕ → ℕ → ℝ} {f : List ℕ} (h : ∀ i ∈ f, d i = d' i ∧ M i = M' i) (t : Ten) : onAxes d M f t = onAxes d' M' f t := by
  induction f with
  | nil => rfl
  | cons i f ih =>
    have e : ∀ d M, onAxes d M (i :: f) t = onAxis (d i) (M i) i (onAxes d M f t) := fun _ _ => rfl
    rw [e, e, (h i (by simp)).1, (h i (by simp)).2, ih fun k hk => h k (by simp [hk])]

theorem polynomial_eq {d s : ℕ} (x : ℕ → ℝ) {t : Ten} (ht : On (List.range s) t) : polynomial d s t x = axSum (fun _ => d) (List.range s) (t * pw (List.range s) x) fun _ => 0 := by
  rw [← part_full x ht fun _ => 0]
  unfold part
  rw [Nat.sub_zero, ← List.range_eq_range']

theorem polynomial_transform {d s : ℕ} (M : ℕ → ℕ → ℝ) (x : ℕ → ℝ) {t : Ten} (ht : On (List.range s) t) :
    polynomial d s t (fun j => ∑ k ∈ range d, M j k * x k) = polynomial d s (onAxes (fun _ => d) (fun _ a b => M b a) (List.range s) t) x := by
  rw [polynomial_eq _ ht, polynomial_eq _ (onAxes_on _ _ ht fun i hi => hi), ← onAxes_pw M x List.nodup_range, mul_comm t]
  rw [axSum_adjoint _ _ (fun i hi => hi) List.nodup_range, mul_comm]

theorem polynomial_sum {κ : Type} (d s : ℕ) (S : Finset κ) (a : κ → ℝ) (t : κ → Ten) (x : ℕ → ℝ) : polynomial d s (∑ k ∈ S, a k • t k) x = ∑ k ∈ S, a k * polynomial d s (t k) x := by
  unfold polynomial
  generalize fullBase (List.replicate s d) = l
  induction l with
  | nil => simp
  | cons j l ih =>
    simp only [List.map_cons, List.sum_cons, mul_add, Finset.sum_add_distrib]
    rw [ih]
    congr 1
    rw [Finset.sum_apply, Finset.sum_mul]
    refine Finset.sum_congr rfl fun k _ => ?_
    rw [Pi.smul_apply, smul_eq_mul, mul_assoc]

theorem polynomial_rotate {x : Irreps} {n : ℕ} {p : Irrep × List Ten} (hp : BGood (List.replicate n x) (List.range n) p) {R : Matrix (Fin 3) (Fin 3) ℝ} (hR : IsOrth R) (v : ℕ → ℝ) (i : Fin (2 * p.1.l + 1)) :
    polynomial x.dim n (p.2.getD i 0) (fun j => ∑ k ∈ range x.dim, entry (x.dMatrix R) j k * v k) = ∑ i', Wig.dMatrix p.1 R i i' * polynomial x.dim n (p.2.getD i' 0) v := by
  obtain ⟨u, hu, h1, h2⟩ := hp.exists
  have hget : ∀ c : Fin (2 * p.1.l + 1), p.2.getD c 0 = u c := by
    intro c
    have hc : (c : ℕ) < (List.ofFn u).length := by rw [List.length_ofFn]; exact c.2
    rw [hu, List.getD_eq_getElem _ _ hc, List.getElem_ofFn]
  have hT : IsOrth R.transpose := hR.transpose
  have h3 := h2 R.transpose hT i
  rw [Matrix.transpose_transpose] at h3
  have e : onAxes (fun _ => x.dim) (fun _ a b => entry (x.dMatrix R) b a) (List.range n) (u i) = ∑ c', Wig.dMatrix p.1 R i c' • u c' := by
    rw [← h3]
    refine onAxes_congr_axes (fun m hm => ?_) _
    have hm' : m < n := List.mem_range.mp hm
    refine ⟨?_, ?_⟩
    · unfold axisDim; rw [List.getD_replicate _ hm']
    · funext a b
      rw [mats_transpose hR]
      unfold mats
      rw [List.getD_replicate _ hm']
  rw [hget, polynomial_transform _ _ (h1 i), e, polynomial_sum]
  exact Finset.sum_congr rfl fun c' _ => by rw [hget]

theorem output_rotate {S : List ℕ} {B : ℕ → IArr Ten} {x : Irreps} (hB : ∀ r ∈ S, Good (List.replicate r x) (List.range r) (B r)) {R : Matrix (Fin 3) (Fin 3) ℝ} (hR : IsOrth R) (w : ℕ → ℕ → ℝ)
    (ir : Irrep) (i : Fin (2 * ir.l + 1)) (v : ℕ → ℝ) :
    output S B x.dim w ir i (fun j => ∑ k ∈ range x.dim, entry (x.dMatrix R) j k * v k) = ∑ i' : Fin (2 * ir.l + 1), Wig.dMatrix ir R i i' * output S B x.dim w ir i' v := by
  unfold output
  simp only [Finset.mul_sum]
  rw [Finset.sum_comm]
  refine Finset.sum_congr rfl fun r hr => ?_
  rw [List.mem_toFinset] at hr
  rw [Finset.sum_comm]
  refine Finset.sum_congr rfl fun k hk => ?_
  have hk' : k < (rowsOf (B r) ir).length := Finset.mem_range.mp hk
  obtain ⟨b, hb, e⟩ := List.mem_map.mp (List.getElem_mem hk')
  obtain ⟨hb1, hb2⟩ := List.mem_filter.mp hb
  rw [decide_eq_true_iff] at hb2
  subst hb2
  have hg := (hB r hr).2 b hb1
  rw [List.getD_eq_getElem _ _ hk', ← e, polynomial_rotate hg hR, Finset.mul_sum]
  refine Finset.sum_congr rfl fun i' _ => ?_
  ring

theorem output_congr {S : List ℕ} {B : ℕ → IArr Ten} {d : ℕ} {w : ℕ → ℕ → ℝ} {ir : Irrep} {i : ℕ} {u v : ℕ → ℝ} (h : ∀ j < d, u j = v j) : output S B d w ir i u = output S B d w ir i v := by
  unfold output
  refine Finset.sum_congr rfl fun r _ => Finset.sum_congr rfl fun k _ => ?_
  congr 1
  unfold polynomial
  congr 1
  apply List.map_congr_left
  intro j hj
  congr 2
  apply List.map_congr_left
  intro a ha
  refine h a ?_
  have hf := mem_fullBase.mp hj
  clear hj
  generalize hl : List.replicate r d = l at hf
  have hd : ∀ b ∈ l, b = d := fun b hb => List.eq_of_mem_replicate (hl ▸ hb)
  clear hl
  induction hf with
  | nil => simp at ha
  | cons h1 _ ih =>
    rcases List.mem_cons.mp ha with rfl | ha
    · rw [← hd _ (List.mem_cons_self ..)]; exact h1
    · exact ih ha fun b hb => hd b (List.mem_cons_of_mem _ hb)

theorem vec_transform {x x' : IArr (C → ℝ)} (hx : x.Coherent) {R : Matrix (Fin 3) (Fin 3) ℝ} (h : x.transformByMatrix R = .ok x') (c : C) {j : ℕ} (hj : j < x.irreps.dim) :
    vec x' c j = ∑ k ∈ range x.irreps.dim, entry (x.irreps.dMatrix R) j k * vec x c k := by
  obtain ⟨z, z1, z2, z3⟩ := C59_irreps_D R x hx (by rw [← Irreps.dim_eq_dimOf_expand]; omega)
  rw [h] at z1; cases z1
  rw [← Irreps.dim_eq_dimOf_expand] at z3
  unfold vec
  rw [z2]
  have hl : x.array.length = x.irreps.dim := hx.inv.length_array
  have hj2 : j < (x.irreps.dMatrix R).length := by rw [z3]; exact hj
  unfold matVec
  rw [List.getD_eq_getElem _ _ (by simpa using hj2), List.getElem_map]
  unfold entry
  rw [List.getD_eq_getElem _ [] hj2]
  generalize (x.irreps.dMatrix R)[j] = row
  rw [← hl]
  generalize x.array = v
  induction v generalizing row with
  | nil => simp
  | cons a v ih =>
    cases row with
    | nil => simp
    | cons b row =>
      rw [List.zipWith_cons_cons, List.sum_cons, List.length_cons, Finset.sum_range_succ', Pi.add_apply, ih row, add_comm]
      simp

/-- **C98 (value).** `SymmetricTensorProduct(orders, keep_irrep_out)` when the bases `B r` of `reduced_symmetric_tensor_product_basis` are returned for the orders up to the largest.
The output has, in increasing order and once each, the irreps of the bases of the given orders; for every channel the component `i` of irrep `ir` is the sum over the orders `r` and the
`K` copies of `ir` in `B r` of `w[r, ir][k] / K` times the homogeneous polynomial of degree `r` in the components of that channel of `x` whose coefficients are the column. -/
theorem C98_value (eigh : Eigh) (eps : ℝ) (fuel : ℕ) (orders : List ℕ) (hne : orders ≠ []) (h0 : ∀ r ∈ orders, r ≠ 0) (keep : Option (List Irrep)) (w : Weights C) (x : IArr (C → ℝ)) (B : ℕ → IArr Ten)
    (hB : ∀ r, 1 ≤ r → (∃ s ∈ orders, r ≤ s) → symmetricBasis eigh eps (optimized eigh eps) true fuel x.irreps r keep = some (.ok (B r))) :
    ∃ y, symmetricTensorProduct eigh eps fuel orders keep w x = .ok y ∧ y.Coherent ∧ y.irreps.Pairwise (fun a b => a.ir.lt b.ir = true) ∧ (∀ mi ∈ y.irreps, mi.mul = 1) ∧
      (∀ ir, ir ∈ y.irreps.map MulIrrep.ir ↔ ∃ r ∈ orders, ir ∈ (B r).irreps.map MulIrrep.ir) ∧
      y.blocks = y.irreps.map fun mi => (mi.ir, (List.range mi.ir.dim).map fun i c =>
        output orders B x.irreps.dim (fun r k => w r mi.ir k c) mi.ir i (fun j => x.array.getD j 0 c)) :=
  call_spec hne h0 (fun r h1 h2 => ⟨by rw [hB r h1 h2]; rfl, symmetric_good (hB r h1 h2), basis_strict (hB r h1 h2)⟩) w

/-- **C98 (total).** Without `keep_irrep_out` and with at least one order, all positive, the module returns. -/
theorem C98_total {eigh : Eigh} (hE : EighOk eigh) {eps : ℝ} (h0 : 0 < eps) (h1 : eps ≤ 1) (orders : List ℕ) (m : ℕ) (hne : orders ≠ []) (hp : ∀ r ∈ orders, r ≠ 0) (hm : ∀ r ∈ orders, r ≤ m) (w : Weights C) (x : IArr (C → ℝ))
    (hd : x.irreps.dim ≠ 0) (hs : 4 * ((x.irreps.dim : ℝ) ^ m) * eps ^ 2 < 1) {fuel : ℕ} (hf : (m - 1) ^ 2 + m ≤ fuel) :
    ∃ y, symmetricTensorProduct eigh eps fuel orders none w x = .ok y := by
  have hex : ∀ r, ∃ B, 1 ≤ r → r ≤ m → symmetricBasis eigh eps (optimized eigh eps) true fuel x.irreps r none = some (.ok B) := by
    intro r
    by_cases h : 1 ≤ r ∧ r ≤ m
    · obtain ⟨B, hB, -⟩ := C97_symmetric hE h0 h1 true x.irreps r (by omega) hd (lt_of_le_of_lt (by
        have : (1 : ℝ) ≤ x.irreps.dim := by exact_mod_cast Nat.one_le_iff_ne_zero.mpr hd
        have h2 := pow_le_pow_right₀ this h.2
        gcongr) hs) (fuel := fuel) (le_trans (Nat.add_le_add (Nat.pow_le_pow_left (by omega) 2) h.2) hf)
      exact ⟨B, fun _ _ => hB⟩
    · exact ⟨⟨[], [], none, none⟩, fun a b => absurd ⟨a, b⟩ h⟩
  choose B hB using hex
  obtain ⟨y, hy, -⟩ := C98_value eigh eps fuel orders hne hp none w x B (fun r h1 ⟨s, a, b⟩ => hB r h1 (le_trans b (hm s a)))
  exact ⟨y, hy⟩

/-- If the module returns, so did the bases. -/
theorem bases_of_ok {orders : List ℕ} {U : ℕ → Except PyErr (IArr Ten)} {w : Weights C} {x y : IArr (C → ℝ)} (h : call orders U w x = .ok y) :
    orders ≠ [] ∧ (∀ r ∈ orders, r ≠ 0) ∧ ∃ B : ℕ → IArr Ten, ∀ r, 1 ≤ r → (∃ s ∈ orders, r ≤ s) → U r = .ok (B r) := by
  unfold call at h
  split at h
  · cases h
  rename_i h0
  cases hm : orders.max? with
  | none => rw [hm] at h; cases h
  | some m =>
    rw [hm] at h
    simp only [bind, Except.bind] at h
    have hm' := List.max?_eq_some_iff.mp hm
    refine ⟨by rintro rfl; simp at hm, ?_, ?_⟩
    · rintro r hr rfl
      exact h0 (List.any_eq_true.mpr ⟨0, hr, rfl⟩)
    · split at h
      · cases h
      rename_i out ho
      have key : ∀ n (o o' : Out C), ((List.range n).reverse.map (· + 1)).foldlM (step orders U w x) o = .ok o' → ∀ r, 1 ≤ r → r ≤ n → ∃ B, U r = .ok B := by
        intro n
        induction n with
        | zero => intro o o' _ r h1 h2; omega
        | succ n ih =>
          intro o o' ho r h1 h2
          rw [List.range_succ, List.reverse_append, List.reverse_singleton, List.singleton_append, List.map_cons, List.foldlM_cons] at ho
          cases hs : step orders U w x o (n + 1) with
          | error e => rw [hs] at ho; cases ho
          | ok o1 =>
            rw [hs] at ho
            by_cases hr : r = n + 1
            · subst hr
              unfold step at hs
              cases hu : U (n + 1) with
              | error e => rw [hu] at hs; cases hs
              | ok B => exact ⟨B, rfl⟩
            · exact ih o1 o' ho r h1 (by omega)
      have k := key m _ _ ho
      refine ⟨fun r => if h : 1 ≤ r ∧ r ≤ m then (k r h.1 h.2).choose else ⟨[], [], none, none⟩, fun r h1 ⟨s, a, b⟩ => ?_⟩
      have h2 := le_trans b (hm'.2 s a)
      simp only [h1, h2, and_self, dif_pos]
      exact (k r h1 h2).choose_spec

/-- **C98 (equivariance).** For every rotation or rotoinversion `R`, all `keep_irrep_out`, weights, tolerance and choice of eigenvectors: if the module returns on `x` then it returns on `R x`, and
the output is the output on `x` transformed by `R`. -/
theorem C98_equivariant (eigh : Eigh) (eps : ℝ) (fuel : ℕ) (orders : List ℕ) (keep : Option (List Irrep)) (w : Weights C) (x y : IArr (C → ℝ)) (hx : x.Coherent)
    (hy : symmetricTensorProduct eigh eps fuel orders keep w x = .ok y) (R : Matrix (Fin 3) (Fin 3) ℝ) (hR : IsOrth R) :
    ∃ x' y' z, x.transformByMatrix R = .ok x' ∧ symmetricTensorProduct eigh eps fuel orders keep w x' = .ok y' ∧ y.transformByMatrix R = .ok z ∧
      z.irreps = y'.irreps ∧ z.array = y'.array := by
  obtain ⟨x', x1, x2, x3, -, -⟩ := C59_transform R x hx
  obtain ⟨hne, h0, B, hB⟩ := bases_of_ok hy
  have hB' : ∀ r, 1 ≤ r → (∃ s ∈ orders, r ≤ s) → symmetricBasis eigh eps (optimized eigh eps) true fuel x.irreps r keep = some (.ok (B r)) :=
    fun r h1 h2 => getD_some_ok (hB r h1 h2)
  obtain ⟨u, u1, u2, u3, u4, u5, u6⟩ := C98_value eigh eps fuel orders hne h0 keep w x B hB'
  rw [hy] at u1; cases u1
  obtain ⟨y', v1, v2, v3, v4, v5, v6⟩ := C98_value eigh eps fuel orders hne h0 keep w x' B (by rw [x3]; exact hB')
  obtain ⟨z, z1, z2, z3, -, z5⟩ := C59_transform R y u2
  have hg : ∀ r ∈ orders, Good (List.replicate r x.irreps) (List.range r) (B r) := fun r hr => symmetric_good (hB' r (by have := h0 r hr; omega) ⟨r, hr, le_refl _⟩)
  have hir : y'.irreps = y.irreps := by
    have nd : ∀ {l : Irreps}, Strict l → l.Nodup := fun h => List.Nodup.of_map _ h.nodup
    have hp : y'.irreps.Perm y.irreps := by
      rw [List.perm_ext_iff_of_nodup (nd v3) (nd u3)]
      have hh : ∀ {l l' : Irreps}, (∀ m ∈ l, m.mul = 1) → (∀ m ∈ l', m.mul = 1) → (∀ ir, ir ∈ l.map MulIrrep.ir → ir ∈ l'.map MulIrrep.ir) → ∀ m ∈ l, m ∈ l' := by
        intro l l' a b c m hm
        obtain ⟨m', h1, h2⟩ := List.mem_map.mp (c m.ir (List.mem_map_of_mem hm))
        have : m' = m := by
          have e1 := a m hm
          have e2 := b m' h1
          cases m; cases m'
          simp only at e1 e2 h2
          rw [e1, e2, h2]
        rw [← this]; exact h1
      intro m
      exact ⟨hh v4 u4 (fun ir h => (u5 ir).mpr ((v5 ir).mp h)) m, hh u4 v4 (fun ir h => (v5 ir).mpr ((u5 ir).mp h)) m⟩
    refine List.Perm.eq_of_pairwise (fun a b _ _ h1 h2 => ?_) v3 u3 hp
    rw [Irrep.lt_iff_enc] at h1 h2
    omega
  refine ⟨x', y', z, x1, v1, z1, by rw [z3, hir], ?_⟩
  rw [← z2.inv.array_eq_blocks, ← v2.inv.array_eq_blocks, z5, u6, v6, hir, List.map_map, List.map_map, List.map_map]
  congr 1
  apply List.map_congr_left
  intro mi _
  simp only [Function.comp_apply]
  have e1 : ∀ g : ℕ → C → ℝ, (List.range mi.ir.dim).map g = List.ofFn fun i : Fin (2 * mi.ir.l + 1) => g i := by
    intro g
    rw [List.ofFn_eq_map, ← List.map_coe_finRange_eq_range, List.map_map]
    rfl
  rw [e1, e1, matVec_ofFn]
  congr 1
  funext i c
  have e2 : output orders B x'.irreps.dim (fun r k => w r mi.ir k c) mi.ir i (fun j => x'.array.getD j 0 c) =
      output orders B x.irreps.dim (fun r k => w r mi.ir k c) mi.ir i (fun j => ∑ k ∈ range x.irreps.dim, entry (x.irreps.dMatrix R) j k * x.array.getD k 0 c) := by
    rw [x3]
    exact output_congr fun j hj => vec_transform hx x1 c hj
  rw [e2, output_rotate hg hR, Finset.sum_apply]
  rfl

/-- Order zero is refused, and so is the empty tuple of orders. -/
theorem C98_refused (eigh : Eigh) (eps : ℝ) (fuel : ℕ) (orders : List ℕ) (keep : Option (List Irrep)) (w : Weights C) (x : IArr (C → ℝ)) :
    (0 ∈ orders → symmetricTensorProduct eigh eps fuel orders keep w x = .error .assertion) ∧ (orders = [] → symmetricTensorProduct eigh eps fuel orders keep w x = .error .valueError) := by
  constructor
  · intro h
    unfold symmetricTensorProduct call
    rw [if_pos (List.any_eq_true.mpr ⟨0, h, rfl⟩)]
  · rintro rfl; rfl

/-- The default configuration with orders one to three on `0e + 1o`: the module returns. -/
example (w : Weights Unit) (v : Fin 4 → Unit → ℝ) : ∃ (eigh : Eigh) (x y : IArr (Unit → ℝ)), EighOk eigh ∧ IArr.ofArray [⟨1, ⟨0, .e⟩⟩, ⟨1, ⟨1, .o⟩⟩] (List.ofFn v) = .ok x ∧
    symmetricTensorProduct eigh 0.00001 7 [3, 1, 2] none w x = .ok y := by
  obtain ⟨eigh, hE⟩ := exists_eigh
  obtain ⟨x, x1, -, x3, -⟩ := (C12_from_array [⟨1, ⟨0, .e⟩⟩, ⟨1, ⟨1, .o⟩⟩] (List.ofFn v)).1 (by simp [expand, dimOf, Irrep.dim])
  have hd : x.irreps.dim = 4 := by rw [x3]; decide
  obtain ⟨y, hy⟩ := C98_total hE (eps := 0.00001) (by norm_num) (by norm_num) [3, 1, 2] 3 (by simp) (by simp) (by simp) w x (by omega) (by rw [hd]; norm_num) (fuel := 7) (by simp)
  exact ⟨eigh, x, y, hE, x1, hy⟩

end E3nn.SymTP

import Verif.Model.Basic
import Verif.Lemmas.MapRows
import Verif.Lemmas.ActivationTr
import Verif.Lemmas.TransformO3
import Verif.Props.C12_C20

/-! # C47: `norm` and `dot`; C61: `cross` -/

namespace E3nn.Basic

open E3nn.IArr E3nn.Wig Matrix

variable {ι : Type}

/-! ### Specification -/

/-- The scalar product of two rows, at the leading index `i`. -/
def inner (r s : List (ι → ℝ)) (i : ι) : ℝ := (List.zipWith (fun a b => a i * b i) r s).sum

/-- Every irrep is transformed by an orthogonal matrix. -/
def Orthogonal (M : (ir : Irrep) → Matrix (Fin (2 * ir.l + 1)) (Fin (2 * ir.l + 1)) ℝ) : Prop := ∀ ir, M ir * (M ir)ᵀ = 1

/-! ### rows -/

theorem zip_self_eq {β : Type} (l : List β) : l.zip l = l.map fun a => (a, a) := by
  induction l with
  | nil => rfl
  | cons a l ih => simp [ih]

theorem sum_apply (l : List (ι → ℝ)) (i : ι) : l.sum i = (l.map fun v => v i).sum := by
  induction l with
  | nil => rfl
  | cons a l ih => simp [ih]

theorem rowDot_apply (r s : List (ι → ℝ)) (i : ι) : rowDot r s i = inner r s i := by
  unfold rowDot inner
  rw [sum_apply, List.map_zipWith]
  rfl

theorem rowDot_eq (r s : List (ι → ℝ)) : rowDot r s = inner r s := funext (rowDot_apply r s)

theorem inner_zero_left (s : List (ι → ℝ)) (n : ℕ) (i : ι) : inner (List.replicate n 0) s i = 0 := by
  unfold inner
  induction n generalizing s with
  | zero => simp
  | succ n ih => cases s with
    | nil => simp
    | cons a s => simp [List.replicate_succ, ih]

theorem inner_comm (r s : List (ι → ℝ)) (i : ι) : inner r s i = inner s r i := by
  unfold inner
  rw [List.zipWith_comm]
  simp only [mul_comm]

theorem inner_zero_right (s : List (ι → ℝ)) (n : ℕ) (i : ι) : inner s (List.replicate n 0) i = 0 := by
  rw [inner_comm, inner_zero_left]

theorem inner_append {a b c d : List (ι → ℝ)} (h : a.length = c.length) (i : ι) : inner (a ++ b) (c ++ d) i = inner a c i + inner b d i := by
  unfold inner
  rw [List.zipWith_append h, List.sum_append]

theorem inner_ofFn {n : ℕ} (v w : Fin n → ι → ℝ) (i : ι) : inner (List.ofFn v) (List.ofFn w) i = ∑ k, v k i * w k i := by
  unfold inner
  have : List.zipWith (fun a b : ι → ℝ => a i * b i) (List.ofFn v) (List.ofFn w) = List.ofFn fun k => v k i * w k i := by
    apply List.ext_getElem (by simp)
    intro k h1 h2
    simp
  rw [this, List.sum_ofFn]

theorem inner_self_nonneg (r : List (ι → ℝ)) (i : ι) : 0 ≤ inner r r i := by
  unfold inner
  apply List.sum_nonneg
  intro a ha
  obtain ⟨k, hk, rfl⟩ := List.mem_iff_getElem.mp ha
  simp only [List.getElem_zipWith]
  exact mul_self_nonneg _

theorem inner_matVec {n : ℕ} {M : Matrix (Fin n) (Fin n) ℝ} (h : M * Mᵀ = 1) {r s : List (ι → ℝ)} (hr : r.length = n) (hs : s.length = n) (i : ι) :
    inner (matVec (matRows M) r) (matVec (matRows M) s) i = inner r s i := by
  obtain ⟨v, rfl⟩ := exists_ofFn hr
  obtain ⟨w, rfl⟩ := exists_ofFn hs
  rw [matVec_ofFn, matVec_ofFn, inner_ofFn, inner_ofFn]
  refine Eq.trans ?_ (Activ.orth_dot h (fun k => v k i) fun k => w k i)
  refine Finset.sum_congr rfl fun k _ => ?_
  simp [Finset.sum_apply]

theorem safeSqrt_eq (t : ℝ) : safeSqrt t = Real.sqrt t := by
  unfold safeSqrt
  by_cases h : t = 0
  · simp [h]
  · simp [h]

/-- The value that `norm` gives to a block. -/
noncomputable def normOf (squared : Bool) (r : List (ι → ℝ)) : ι → ℝ := fun i => if squared then inner r r i else Real.sqrt (inner r r i)

theorem normRow_eq (squared : Bool) (r : List (ι → ℝ)) : normRow squared r = [normOf squared r] := by
  unfold normRow normOf
  cases squared
  · simp only [Bool.false_eq_true, if_false, List.cons.injEq, and_true]
    funext i
    rw [safeSqrt_eq, rowDot_apply]
  · simp [rowDot_eq]

theorem normOf_zero (squared : Bool) (n : ℕ) : normOf squared (List.replicate n (0 : ι → ℝ)) = 0 := by
  funext i
  unfold normOf
  simp [inner_zero_left]

/-! ### blocks -/

theorem inner_flatten (bs cs : List (Irrep × List (ι → ℝ))) (h : List.Forall₂ (fun b c => b.2.length = c.2.length) bs cs) (i : ι) :
    inner (bs.map Prod.snd).flatten (cs.map Prod.snd).flatten i = (List.zipWith (fun b c => inner b.2 c.2 i) bs cs).sum := by
  induction h with
  | nil => simp [inner]
  | cons h1 h2 ih =>
    simp only [List.map_cons, List.flatten_cons, List.zipWith_cons_cons, List.sum_cons]
    rw [inner_append h1, ih]

theorem blocks_len {α : Type} [Zero α] {x : IArr α} (hx : Inv x) : ∀ b ∈ x.blocks, b.2.length = 2 * b.1.l + 1 := by
  intro b hb
  exact blocksOf_row_length _ _ (by rw [hx.length_array, Irreps.dim_eq_dimOf_expand]) b hb

theorem same_lengths {α : Type} [Zero α] {x y : IArr α} (hx : Inv x) (hy : Inv y) (h : expand x.irreps = expand y.irreps) :
    List.Forall₂ (fun b c => b.2.length = c.2.length) x.blocks y.blocks := by
  have h1 := blocks_irs x
  have h2 := blocks_irs y
  rw [h, ← h2] at h1
  have hl : x.blocks.length = y.blocks.length := by simpa using congrArg List.length h1
  rw [List.forall₂_iff_get]
  refine ⟨hl, ?_⟩
  intro k a b
  have e : (x.blocks.get ⟨k, a⟩).1 = (y.blocks.get ⟨k, b⟩).1 := by
    have := congrArg (fun l : List Irrep => l[k]?) h1
    simp only [List.getElem?_map, List.getElem?_eq_getElem a, List.getElem?_eq_getElem b, Option.map_some, Option.some.injEq] at this
    exact this
  rw [blocks_len hx _ (List.get_mem _ _), blocks_len hy _ (List.get_mem _ _), e]

/-- The scalar product of two arrays is the sum over the irreps. -/
theorem inner_array {x y : IArr (ι → ℝ)} (hx : Inv x) (hy : Inv y) (h : expand x.irreps = expand y.irreps) (i : ι) :
    inner x.array y.array i = (List.zipWith (fun b c => inner b.2 c.2 i) x.blocks y.blocks).sum := by
  rw [← inner_flatten _ _ (same_lengths hx hy h), hx.array_eq_blocks, hy.array_eq_blocks]

theorem ofArray_scalar (v : ι → ℝ) : ∃ y, ofArray [⟨1, se⟩] [v] = .ok y ∧ y.Coherent ∧ y.irreps = [⟨1, se⟩] ∧ y.array = [v] := by
  obtain ⟨y, h1, h2, h3, h4, -⟩ := (C12_from_array ([⟨1, se⟩] : Irreps) [v]).1 (by rfl)
  exact ⟨y, h1, h2, h3, h4⟩

/-! ### norm -/

/-- **C47 (norm of every irrep).** `norm(x)` has one even scalar per irrep: the square root of the sum of the squares of its
components (the sum itself with `squared=True`), whatever chunks are stored as `None`. -/
theorem C47_norm (squared : Bool) (x : IArr (ι → ℝ)) (hx : x.Coherent) :
    ∃ y, norm squared true x = .ok y ∧ y.Coherent ∧ y.irreps = x.irreps.map (fun m => ⟨m.mul, ⟨0, .e⟩⟩) ∧
      y.blocks = x.blocks.map fun b => (⟨0, .e⟩, [normOf squared b.2]) := by
  obtain ⟨y, h1, h2, h3, h4, h5, h6⟩ := mapRows_spec (T := fun _ => se) (F := fun _ => normRow squared (ι := ι))
    (by intro ir r _; rw [normRow_eq]; rfl) (by intro ir; rw [normRow_eq, normOf_zero]; rfl) hx.inv
  refine ⟨y, ?_, h2.coherent, h3, ?_⟩
  · unfold norm
    rw [if_pos rfl, ← h1]
    congr 1
    conv_lhs => rw [← hx.inv.pairs.2.2.1]
    rw [List.map_map]; rfl
  · rw [h6]
    apply List.map_congr_left
    intro b _
    rw [normRow_eq]; rfl

/-- **C47 (total norm).** With `per_irrep=False`, the norm of the whole array. -/
theorem C47_norm_total (squared : Bool) (x : IArr (ι → ℝ)) (hx : x.Coherent) :
    (∃ y, norm squared false x = .ok y ∧ y.Coherent ∧ y.irreps = [⟨1, ⟨0, .e⟩⟩] ∧ y.array = [normOf squared x.array]) ∧
    ∀ i, inner x.array x.array i = (x.blocks.map fun b => inner b.2 b.2 i).sum := by
  refine ⟨?_, fun i => ?_⟩
  · unfold norm
    rw [if_neg (by simp), normRow_eq]
    exact ofArray_scalar _
  · rw [inner_array hx.inv hx.inv rfl]
    congr 1
    rw [← List.map_uncurry_zip_eq_zipWith, zip_self_eq]
    simp [Function.comp_def]

/-! ### dot -/

theorem dotChunk_eq : dotChunk (ι := ι) = ZC fun r s => [rowDot r s] := by
  funext a b
  cases a <;> cases b <;> rfl

/-- **C47 (dot product of every irrep).** -/
theorem C47_dot (x y : IArr (ι → ℝ)) (hx : x.Coherent) (hy : y.Coherent) (h : expand x.irreps = expand y.irreps) :
    ∃ z, dot true x y = .ok z ∧ z.Coherent ∧ expand z.irreps = List.replicate (expand x.irreps).length ⟨0, .e⟩ ∧
      z.blocks = List.zipWith (fun b c => (⟨0, .e⟩, [inner b.2 c.2])) x.blocks y.blocks := by
  obtain ⟨⟨u, u1, u2, u3, -, u5⟩, -⟩ := C17_simplify_unify x hx
  obtain ⟨⟨v, v1, v2, v3, -, v5⟩, -⟩ := C17_simplify_unify y hy
  have hi : u.irreps = v.irreps := by rw [u3, v3, Irreps.simplify_eq_iff]; exact h
  obtain ⟨z, z1, z2, z3, z4⟩ := zipRows_spec (T := fun _ _ => se) (F := fun r s : List (ι → ℝ) => [rowDot r s]) u2.inv v2.inv (by rw [hi])
    (by intros; rfl)
    (by intro _ _ _ _ _ s _; funext; rw [rowDot_eq]; congr 1; funext i; exact inner_zero_left _ _ _)
    (by intro _ _ _ _ _ s _; funext; rw [rowDot_eq]; congr 1; funext i; exact inner_zero_right _ _ _)
  have e4 : z.blocks = List.zipWith (fun b c => (⟨0, .e⟩, [inner b.2 c.2])) x.blocks y.blocks := by
    rw [z4, u5, v5]; simp only [rowDot_eq]; rfl
  refine ⟨z, ?_, z2.coherent, ?_, e4⟩
  · unfold dot
    rw [u1, v1]
    simp only [bind, Except.bind]
    rw [if_neg (by simpa using hi), if_pos trivial, ← z1, dotChunk_eq, hi]
    congr 1
    rw [← List.map_uncurry_zip_eq_zipWith, zip_self_eq, List.map_map]
    rfl
  · rw [← blocks_irs z, e4, List.map_zipWith]
    have : List.zipWith (fun (_ : Irrep × List (ι → ℝ)) (_ : Irrep × List (ι → ℝ)) => (⟨0, .e⟩ : Irrep)) x.blocks y.blocks = List.replicate (expand x.irreps).length ⟨0, .e⟩ := by
      rw [List.eq_replicate_iff]
      constructor
      · rw [List.length_zipWith, ← List.length_map (f := Prod.fst) (as := x.blocks), ← List.length_map (f := Prod.fst) (as := y.blocks), blocks_irs, blocks_irs, h]
        simp
      · intro b hb
        obtain ⟨k, hk, rfl⟩ := List.mem_iff_getElem.mp hb
        simp
    exact this

theorem dotStep_foldl (l : List ((MulIrrep × Chunk (ι → ℝ)) × (MulIrrep × Chunk (ι → ℝ))))
    (hs : ∀ q ∈ l, shapeOk q.1.1 q.1.2 = true ∧ shapeOk q.2.1 q.2.2 = true ∧ q.1.1 = q.2.1) (acc : Option (ι → ℝ)) :
    ((l.map fun q => (q.1.2, q.2.2)).foldl dotStep acc).getD 0 =
      acc.getD 0 + ((l.flatMap fun q => List.zipWith (fun b c => inner b.2 c.2) (blk q.1) (blk q.2))).sum := by
  induction l generalizing acc with
  | nil => simp
  | cons q l ih =>
    obtain ⟨h1, h2, h3⟩ := hs q (by simp)
    obtain ⟨⟨m, c⟩, ⟨m', c'⟩⟩ := q
    simp only at h1 h2 h3
    subst h3
    simp only [List.map_cons, List.foldl_cons, List.flatMap_cons, List.sum_append]
    rw [ih (fun q hq => hs q (by simp [hq])), ← add_assoc]
    congr 1
    have hzero : ∀ (l : List (ι → ℝ)), (∀ a ∈ l, a = 0) → l.sum = 0 := fun l hl => List.sum_eq_zero hl
    cases c with
    | none =>
      simp only [dotStep]
      rw [hzero, add_zero]
      intro a ha
      obtain ⟨k, hk, rfl⟩ := List.mem_iff_getElem.mp ha
      simp only [List.getElem_zipWith, blk_none, List.getElem_replicate]
      funext i; exact inner_zero_left _ _ _
    | some c =>
      cases c' with
      | none =>
        simp only [dotStep]
        rw [hzero, add_zero]
        intro a ha
        obtain ⟨k, hk, rfl⟩ := List.mem_iff_getElem.mp ha
        simp only [List.getElem_zipWith, blk_none, List.getElem_replicate]
        funext i; exact inner_zero_right _ _ _
      | some c' =>
        simp only [dotStep, Option.getD_some]
        rw [blk_some h1, blk_some h2, List.zipWith_map]
        rw [show rowDot (ι := ι) = inner from funext fun r => funext fun s => rowDot_eq r s]

/-- **C47 (dot product).** `dot(x, y)` is the scalar product of the two arrays of numbers. -/
theorem C47_dot_total (x y : IArr (ι → ℝ)) (hx : x.Coherent) (hy : y.Coherent) (h : expand x.irreps = expand y.irreps) :
    ∃ z, dot false x y = .ok z ∧ z.Coherent ∧ z.irreps = [⟨1, ⟨0, .e⟩⟩] ∧ z.array = [inner x.array y.array] := by
  obtain ⟨⟨u, u1, u2, u3, u4, u5⟩, -⟩ := C17_simplify_unify x hx
  obtain ⟨⟨v, v1, v2, v3, v4, v5⟩, -⟩ := C17_simplify_unify y hy
  have hi : u.irreps = v.irreps := by rw [u3, v3, Irreps.simplify_eq_iff]; exact h
  have hpu := u2.inv.pairs
  have hpv := v2.inv.pairs
  have key := dotStep_foldl ((u.irreps.zip u.chunks).zip (v.irreps.zip v.chunks)) (by
    rintro ⟨p1, p2⟩ hq
    have ha := List.of_mem_zip (a := p1) (b := p2) hq
    refine ⟨hpu.1 _ ha.1, hpv.1 _ ha.2, ?_⟩
    have : (p1.1, p2.1) ∈ ((u.irreps.zip u.chunks).zip (v.irreps.zip v.chunks)).map fun q => (q.1.1, q.2.1) := List.mem_map.mpr ⟨_, hq, rfl⟩
    have e : ((u.irreps.zip u.chunks).zip (v.irreps.zip v.chunks)).map (fun q => (q.1.1, q.2.1)) = u.irreps.zip v.irreps := by
      conv_rhs => rw [← hpu.2.1, ← hpv.2.1, List.zip_map]
      rfl
    rw [e, hi, zip_self_eq] at this
    obtain ⟨m, -, hm⟩ := List.mem_map.mp this
    simp only [Prod.mk.injEq] at hm
    show p1.1 = p2.1
    rw [← hm.1, ← hm.2]) none
  have e : ((u.irreps.zip u.chunks).zip (v.irreps.zip v.chunks)).map (fun q => (q.1.2, q.2.2)) = u.chunks.zip v.chunks := by
    conv_rhs => rw [← hpu.2.2.1, ← hpv.2.2.1, List.zip_map]
    rfl
  rw [e, zip_flatMap_zipWith _ (pairs_muls' u2.inv v2.inv (by rw [hi])), ← u2.inv.blocks_pairs, ← v2.inv.blocks_pairs, u5, v5] at key
  have hsum : (List.zipWith (fun b c => inner b.2 c.2) x.blocks y.blocks).sum = inner x.array y.array := by
    funext i
    rw [sum_apply, List.map_zipWith, inner_array hx.inv hy.inv h]
  simp only [Option.getD_none, zero_add, hsum] at key
  unfold dot
  rw [u1, v1]
  simp only [bind, Except.bind, Bool.false_eq_true, if_false]
  rw [if_neg (by simpa using hi)]
  cases hf : (u.chunks.zip v.chunks).foldl dotStep none with
  | none =>
    rw [hf] at key
    simp only [Option.getD_none] at key
    refine ⟨⟨[⟨1, se⟩], [0], some [true], none⟩, rfl, ?_, rfl, by rw [← key]⟩
    have : FlagsOk ([⟨1, se⟩] : Irreps) ([0] : List (ι → ℝ)) [true] := by
      have := pairs_spec (α := ι → ℝ) [((⟨1, se⟩ : MulIrrep), none)] (by intro p hp; rw [List.mem_singleton.mp hp]; rfl)
      exact this.1
    exact (inv_nocache this).coherent
  | some out =>
    rw [hf] at key
    simp only [Option.getD_some] at key
    rw [← key]
    exact ofArray_scalar out

/-- **C47 (dot, refusal).** Arrays whose irreps differ (after `simplify()`) are refused. -/
theorem C47_dot_error (p : Bool) (x y : IArr (ι → ℝ)) (hx : x.Coherent) (hy : y.Coherent) (h : expand x.irreps ≠ expand y.irreps) :
    dot p x y = .error .valueError := by
  obtain ⟨⟨u, u1, u2, u3, u4, u5⟩, -⟩ := C17_simplify_unify x hx
  obtain ⟨⟨v, v1, v2, v3, v4, v5⟩, -⟩ := C17_simplify_unify y hy
  have hi : u.irreps ≠ v.irreps := by rw [u3, v3, Ne, Irreps.simplify_eq_iff]; exact h
  unfold dot
  rw [u1, v1]
  simp only [bind, Except.bind]
  rw [if_pos hi]

/-! ### invariance -/

theorem inner_blocks_tr {M : (ir : Irrep) → Matrix (Fin (2 * ir.l + 1)) (Fin (2 * ir.l + 1)) ℝ} (hM : Orthogonal M) {x x' : IArr (ι → ℝ)}
    (h : Tr (fun ir => matVec (matRows (M ir))) x x') (squared : Bool) :
    x'.blocks.map (fun b => ((⟨0, .e⟩ : Irrep), [normOf squared b.2])) = x.blocks.map fun b => (⟨0, .e⟩, [normOf squared b.2]) := by
  rw [h.blocks (Act_matRows M), List.map_map]
  apply List.map_congr_left
  intro b hb
  have hl := blocks_len h.inv b hb
  simp only [Function.comp_apply, TB]
  congr 2
  funext i
  unfold normOf
  rw [inner_matVec (hM b.1) hl hl]

theorem inner_zip_tr {M : (ir : Irrep) → Matrix (Fin (2 * ir.l + 1)) (Fin (2 * ir.l + 1)) ℝ} (hM : Orthogonal M) {x x' y y' : IArr (ι → ℝ)}
    (h : Tr (fun ir => matVec (matRows (M ir))) x x') (k : Tr (fun ir => matVec (matRows (M ir))) y y') (he : expand x.irreps = expand y.irreps) :
    List.zipWith (fun b c => inner b.2 c.2) x'.blocks y'.blocks = List.zipWith (fun b c => inner b.2 c.2) x.blocks y.blocks := by
  rw [h.blocks (Act_matRows M), k.blocks (Act_matRows M), List.zipWith_map]
  have h1 := blocks_irs x
  rw [he, ← blocks_irs y] at h1
  apply List.ext_getElem (by simp)
  intro j a b
  simp only [List.length_zipWith] at a b
  have e : (x.blocks[j]'(by omega)).1 = (y.blocks[j]'(by omega)).1 := by
    have := congrArg (fun l : List Irrep => l[j]?) h1
    simpa only [List.getElem?_map, List.getElem?_eq_getElem (show j < x.blocks.length by omega), List.getElem?_eq_getElem (show j < y.blocks.length by omega), Option.map_some, Option.some.injEq] using this
  simp only [List.getElem_zipWith, TB]
  funext i
  have l1 := blocks_len h.inv _ (List.getElem_mem (show j < x.blocks.length by omega))
  have l2 := blocks_len k.inv _ (List.getElem_mem (show j < y.blocks.length by omega))
  rw [← e] at l2 ⊢
  exact inner_matVec (hM _) l1 l2 i

/-- **C47 (invariance).** If every irrep of `x` and `y` is transformed by an orthogonal matrix, `norm` (per irrep or total, squared or not) and `dot`
(per irrep or total) return the same numbers. -/
theorem C47_invariant (M : (ir : Irrep) → Matrix (Fin (2 * ir.l + 1)) (Fin (2 * ir.l + 1)) ℝ) (hM : Orthogonal M) (x y : IArr (ι → ℝ))
    (hx : x.Coherent) (hy : y.Coherent) :
    ∃ x' y', x.transform (fun ir => matRows (M ir)) = .ok x' ∧ y.transform (fun ir => matRows (M ir)) = .ok y' ∧
      (∀ squared p, ∃ n n', norm squared p x = .ok n ∧ norm squared p x' = .ok n' ∧ n'.irreps = n.irreps ∧ n'.array = n.array) ∧
      (expand x.irreps = expand y.irreps → ∀ p, ∃ d d', dot p x y = .ok d ∧ dot p x' y' = .ok d' ∧ expand d'.irreps = expand d.irreps ∧ d'.array = d.array) := by
  obtain ⟨x', x1, x2⟩ := transformBy_spec (Act_matRows (α := ι → ℝ) M) hx.inv
  obtain ⟨y', y1, y2⟩ := transformBy_spec (Act_matRows (α := ι → ℝ) M) hy.inv
  refine ⟨x', y', x1, y1, ?_, ?_⟩
  · intro squared p
    cases p with
    | true =>
      obtain ⟨n, a1, a2, a3, a4⟩ := C47_norm squared x hx
      obtain ⟨n', b1, b2, b3, b4⟩ := C47_norm squared x' x2.inv'.coherent
      refine ⟨n, n', a1, b1, by rw [a3, b3, x2.irreps], ?_⟩
      rw [← a2.inv.array_eq_blocks, ← b2.inv.array_eq_blocks, a4, b4, inner_blocks_tr hM x2]
    | false =>
      obtain ⟨⟨n, a1, a2, a3, a4⟩, -⟩ := C47_norm_total squared x hx
      obtain ⟨⟨n', b1, b2, b3, b4⟩, -⟩ := C47_norm_total squared x' x2.inv'.coherent
      refine ⟨n, n', a1, b1, by rw [a3, b3], ?_⟩
      rw [a4, b4]
      have : inner x'.array x'.array = inner x.array x.array := by
        funext i
        rw [inner_array hx.inv hx.inv rfl, inner_array x2.inv' x2.inv' rfl]
        have := congrArg (fun l : List (ι → ℝ) => (l.map fun v => v i).sum) (inner_zip_tr hM x2 x2 rfl)
        simpa only [List.map_zipWith] using this
      unfold normOf
      rw [this]
  · intro he p
    have he' : expand x'.irreps = expand y'.irreps := by rw [x2.irreps, y2.irreps, he]
    have hz := inner_zip_tr hM x2 y2 he
    cases p with
    | true =>
      obtain ⟨d, a1, a2, a3, a4⟩ := C47_dot x y hx hy he
      obtain ⟨d', b1, b2, b3, b4⟩ := C47_dot x' y' x2.inv'.coherent y2.inv'.coherent he'
      refine ⟨d, d', a1, b1, by rw [a3, b3, x2.irreps], ?_⟩
      rw [← a2.inv.array_eq_blocks, ← b2.inv.array_eq_blocks, a4, b4]
      have := congrArg (fun l : List (ι → ℝ) => (l.map fun v => [v]).flatten) hz
      simpa only [List.map_zipWith] using this
    | false =>
      obtain ⟨d, a1, a2, a3, a4⟩ := C47_dot_total x y hx hy he
      obtain ⟨d', b1, b2, b3, b4⟩ := C47_dot_total x' y' x2.inv'.coherent y2.inv'.coherent he'
      refine ⟨d, d', a1, b1, by rw [a3, b3], ?_⟩
      rw [a4, b4]
      congr 1
      funext i
      rw [inner_array hx.inv hy.inv he, inner_array x2.inv' y2.inv' he']
      have := congrArg (fun l : List (ι → ℝ) => (l.map fun v => v i).sum) hz
      simpa only [List.map_zipWith] using this

/-- The representation matrices of O(3) are such a family. -/
theorem C47_O3 {R : Matrix (Fin 3) (Fin 3) ℝ} (hR : IsOrth R) : Orthogonal fun ir => dMatrix ir R := fun ir => (C39_orthogonal ir hR).1

/-- Arrays made from numbers are coherent. -/
theorem coherent_plain {α : Type} [Zero α] (ms : Irreps) (a : List α) (h : a.length = ms.dim) : (⟨ms, a, none, none⟩ : IArr α).Coherent := by
  obtain ⟨y, h1, h2, -⟩ := (C12_from_array ms a).1 (by rw [h, Irreps.dim_eq_dimOf_expand])
  unfold IArr.ofArray at h1
  simp only [make, h] at h1
  rw [if_neg (by simp)] at h1
  simp at h1
  rw [h1]; exact h2

/-- A concrete case: `2x0e + 1e` with `1 + 2 + 3 + 4 + 5`. -/
example : ∃ z, dot (ι := Unit) false ⟨[⟨2, ⟨0, .e⟩⟩, ⟨1, ⟨1, .e⟩⟩], [1, 2, 3, 4, 5], none, none⟩ ⟨[⟨2, ⟨0, .e⟩⟩, ⟨1, ⟨1, .e⟩⟩], [1, 1, 1, 1, 1], none, none⟩ = .ok z ∧
    z.array = [fun _ => 15] := by
  obtain ⟨z, h1, -, -, h4⟩ := C47_dot_total (ι := Unit) _ _ (coherent_plain [⟨2, ⟨0, .e⟩⟩, ⟨1, ⟨1, .e⟩⟩] [1, 2, 3, 4, 5] rfl) (coherent_plain [⟨2, ⟨0, .e⟩⟩, ⟨1, ⟨1, .e⟩⟩] [1, 1, 1, 1, 1] rfl) rfl
  refine ⟨z, h1, ?_⟩
  rw [h4]
  congr 1
  funext i
  simp [inner]
  norm_num

end E3nn.Basic

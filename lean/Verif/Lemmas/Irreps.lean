import Verif.Lemmas.Irrep
import Mathlib.Data.List.Basic
import Mathlib.Data.List.Chain

/-! # Helper lemmas on `Irreps` -/

namespace E3nn

@[simp] theorem expand_nil : expand [] = [] := rfl
@[simp] theorem expand_cons (m : MulIrrep) (x : Irreps) :
    expand (m :: x) = List.replicate m.mul m.ir ++ expand x := by simp [expand]
@[simp] theorem expand_append (x y : Irreps) : expand (x ++ y) = expand x ++ expand y := by
  simp [expand]

@[simp] theorem dimOf_nil : dimOf [] = 0 := rfl
@[simp] theorem dimOf_cons (a : Irrep) (s : List Irrep) : dimOf (a :: s) = a.dim + dimOf s := by
  simp [dimOf, Irrep.dim]
@[simp] theorem dimOf_append (s t : List Irrep) : dimOf (s ++ t) = dimOf s + dimOf t := by
  simp [dimOf]
@[simp] theorem dimOf_replicate (n : Nat) (a : Irrep) :
    dimOf (List.replicate n a) = n * a.dim := by
  simp [dimOf, Irrep.dim]

theorem dim_pos (a : Irrep) : 0 < a.dim := by simp [Irrep.dim]

namespace Irreps

theorem dim_cons (m : MulIrrep) (x : Irreps) : dim (m :: x) = m.dim + dim x := by
  simp [dim, MulIrrep.dim]

theorem dim_append (x y : Irreps) : dim (x ++ y) = dim x + dim y := by simp [dim]

theorem dim_eq_dimOf_expand (x : Irreps) : dim x = dimOf (expand x) := by
  induction x with
  | nil => rfl
  | cons m x ih => rw [dim_cons, ih]; simp [MulIrrep.dim]

theorem numIrreps_eq_length_expand (x : Irreps) : numIrreps x = (expand x).length := by
  induction x with
  | nil => rfl
  | cons m x ih => simp [numIrreps] at *; omega

theorem count_cons (m : MulIrrep) (x : Irreps) (ir : Irrep) :
    count (m :: x) ir = (if ir = m.ir then m.mul else 0) + count x ir := by
  unfold count
  by_cases h : ir = m.ir <;> simp [h]

theorem count_eq_count_expand (x : Irreps) (ir : Irrep) :
    count x ir = (expand x).count ir := by
  induction x with
  | nil => rfl
  | cons m x ih =>
    rw [count_cons, expand_cons, List.count_append, ih, List.count_replicate]
    congr 1
    by_cases h : ir = m.ir
    · simp [h]
    · have : ¬ m.ir = ir := fun h' => h h'.symm
      simp [h, this]

theorem ls_eq (x : Irreps) : ls x = (expand x).map Irrep.l := by
  induction x with
  | nil => rfl
  | cons m x ih => simp only [ls, List.flatMap_cons] at *; rw [ih]; simp

/-! ### unify, simplify -/

theorem expand_unifyLoop (out x : Irreps) :
    expand (unifyLoop out x) = expand out.reverse ++ expand x := by
  induction x generalizing out with
  | nil => cases out <;> simp [unifyLoop]
  | cons m x ih =>
    cases out with
    | nil => simp [unifyLoop, ih]
    | cons b out =>
      unfold unifyLoop
      split
      · next h =>
        rw [ih, List.reverse_cons, List.reverse_cons, expand_append, expand_append, expand_cons,
          expand_cons, expand_cons, List.replicate_add, h]
        simp only [expand_nil, List.append_nil, List.append_assoc]
      · rw [ih]; simp

theorem expand_removeZero (x : Irreps) : expand (removeZeroMultiplicities x) = expand x := by
  induction x with
  | nil => rfl
  | cons m x ih =>
    unfold removeZeroMultiplicities at *
    rw [List.filter_cons]
    split
    · simp [ih]
    · next h =>
      have : m.mul = 0 := by simpa using h
      simp [ih, this]

/-- No two adjacent terms have the same irrep. -/
def AdjDistinct : Irreps → Prop
  | [] => True
  | [_] => True
  | a :: b :: x => a.ir ≠ b.ir ∧ AdjDistinct (b :: x)

theorem adjDistinct_iff (x : Irreps) :
    AdjDistinct x ↔ x.IsChain (fun a b => a.ir ≠ b.ir) := by
  induction x with
  | nil => simp [AdjDistinct]
  | cons a x ih =>
    cases x with
    | nil => simp [AdjDistinct]
    | cons b x => simp only [AdjDistinct, List.isChain_cons_cons, ih]

theorem unifyLoop_chain (out x : Irreps) (h : out.reverse.IsChain (fun a b => a.ir ≠ b.ir)) :
    (unifyLoop out x).IsChain (fun a b => a.ir ≠ b.ir) := by
  induction x generalizing out with
  | nil => cases out <;> simpa [unifyLoop] using h
  | cons m x ih =>
    cases out with
    | nil => exact ih _ (by simp)
    | cons b out =>
      unfold unifyLoop
      split
      · next hbm =>
        apply ih
        simp only [List.reverse_cons] at h ⊢
        rw [List.isChain_append] at h ⊢
        refine ⟨h.1, by simp, ?_⟩
        intro a ha c hc
        simp only [List.head?_cons, Option.mem_def, Option.some.injEq] at hc
        have := h.2.2 a ha b (by simp)
        rw [← hc]
        simpa [← hbm] using this
      · next hbm =>
        apply ih
        rw [List.reverse_cons, List.isChain_append]
        refine ⟨h, by simp, ?_⟩
        intro a ha c hc
        simp at ha hc
        subst ha; subst hc
        exact hbm

theorem unifyLoop_pos (out x : Irreps) (h : ∀ m ∈ out, 0 < m.mul) (hx : ∀ m ∈ x, 0 < m.mul) :
    ∀ m ∈ unifyLoop out x, 0 < m.mul := by
  induction x generalizing out with
  | nil =>
    intro m hm
    cases out with
    | nil => simp [unifyLoop] at hm
    | cons b out => exact h m (by simpa [unifyLoop, or_comm] using hm)
  | cons m x ih =>
    have hx' : ∀ m ∈ x, 0 < m.mul := fun k hk => hx k (by simp [hk])
    have hm := hx m (by simp)
    cases out with
    | nil => exact ih _ (by simpa using hm) hx'
    | cons b out =>
      unfold unifyLoop
      split
      · apply ih _ _ hx'
        intro k hk
        simp at hk
        rcases hk with rfl | hk
        · simp; omega
        · exact h k (by simp [hk])
      · apply ih _ _ hx'
        intro k hk
        simp at hk
        rcases hk with rfl | rfl | hk
        · exact hm
        · exact h _ (by simp)
        · exact h k (by simp [hk])

theorem unifyLoop_of_chain (out x : Irreps)
    (h : (out.reverse ++ x).IsChain (fun a b => a.ir ≠ b.ir)) :
    unifyLoop out x = out.reverse ++ x := by
  induction x generalizing out with
  | nil => cases out <;> simp [unifyLoop]
  | cons m x ih =>
    cases out with
    | nil =>
      have := ih [m] (by simpa using h)
      simpa [unifyLoop] using this
    | cons b out =>
      unfold unifyLoop
      have hne : b.ir ≠ m.ir := by
        rw [List.isChain_append] at h
        exact h.2.2 b (by simp) m (by simp)
      rw [if_neg hne, ih]
      · simp
      · simpa using h

/-- A list with positive multiplicities and no equal neighbours is determined by the sequence of
irreps it denotes. -/
theorem expand_injective_of_chain (x y : Irreps)
    (hx : x.IsChain (fun a b => a.ir ≠ b.ir)) (hy : y.IsChain (fun a b => a.ir ≠ b.ir))
    (px : ∀ m ∈ x, 0 < m.mul) (py : ∀ m ∈ y, 0 < m.mul) (h : expand x = expand y) : x = y := by
  induction x generalizing y with
  | nil =>
    cases y with
    | nil => rfl
    | cons n y =>
      have := py n (by simp)
      simp at h
      omega
  | cons m x ih =>
    cases y with
    | nil =>
      have := px m (by simp)
      simp at h
      omega
    | cons n y =>
      obtain ⟨m1, i1⟩ := m
      obtain ⟨m2, i2⟩ := n
      have p1 : 0 < m1 := px ⟨m1, i1⟩ (by simp)
      have p2 : 0 < m2 := py ⟨m2, i2⟩ (by simp)
      have hi : i1 = i2 := by
        have := congrArg List.head? h
        simp only [expand_cons, List.head?_append, List.head?_replicate] at this
        rw [if_neg (by omega), if_neg (by omega)] at this
        simpa using this
      subst hi
      -- a leftover copy of `i1` cannot start the expansion of the next terms
      have key : ∀ (k : Nat) (z w : Irreps), 0 < k →
          (⟨m1, i1⟩ :: z).IsChain (fun a b => a.ir ≠ b.ir) → (∀ m ∈ z, 0 < m.mul) →
          expand z ≠ List.replicate k i1 ++ expand w := by
        intro k z w hk hz pz he
        cases z with
        | nil =>
          have := congrArg List.length he
          simp at this
          omega
        | cons c z =>
          have hc := pz c (by simp)
          have := congrArg List.head? he
          simp only [expand_cons, List.head?_append, List.head?_replicate] at this
          rw [if_neg (by omega), if_neg (by omega)] at this
          simp at this
          rw [List.isChain_cons_cons] at hz
          exact hz.1 this.symm
      have hm : m1 = m2 := by
        rcases Nat.lt_trichotomy m1 m2 with hlt | heq | hgt
        · exfalso
          obtain ⟨k, rfl⟩ := Nat.exists_eq_add_of_lt hlt
          simp only [expand_cons] at h
          rw [Nat.add_assoc, List.replicate_add, List.append_assoc, List.append_cancel_left_eq] at h
          exact key _ x y (by omega) hx (fun m hm => px m (by simp [hm])) h
        · exact heq
        · exfalso
          obtain ⟨k, rfl⟩ := Nat.exists_eq_add_of_lt hgt
          simp only [expand_cons] at h
          rw [Nat.add_assoc, List.replicate_add, List.append_assoc, List.append_cancel_left_eq] at h
          refine key _ y x (by omega) ?_ (fun m hm => py m (by simp [hm])) h.symm
          cases y with
          | nil => simp
          | cons c y =>
            rw [List.isChain_cons_cons] at hy ⊢
            exact hy
      subst hm
      congr 1
      apply ih
      · exact hx.of_cons
      · exact hy.of_cons
      · exact fun m hm => px m (by simp [hm])
      · exact fun m hm => py m (by simp [hm])
      · simpa using h

theorem expand_simplify (x : Irreps) : expand (simplify x) = expand x := by
  unfold simplify unify
  rw [expand_unifyLoop, expand_removeZero]
  simp

theorem expand_unify (x : Irreps) : expand (unify x) = expand x := by
  unfold unify
  rw [expand_unifyLoop]
  simp

theorem simplify_chain (x : Irreps) : (simplify x).IsChain (fun a b => a.ir ≠ b.ir) :=
  unifyLoop_chain [] _ (by simp)

theorem simplify_pos (x : Irreps) : ∀ m ∈ simplify x, 0 < m.mul := by
  apply unifyLoop_pos
  · simp
  · intro m hm
    unfold removeZeroMultiplicities at hm
    simp at hm
    exact hm.2

theorem simplify_eq_iff (x y : Irreps) : simplify x = simplify y ↔ expand x = expand y := by
  constructor
  · intro h
    rw [← expand_simplify x, h, expand_simplify]
  · intro h
    apply expand_injective_of_chain
    · exact simplify_chain x
    · exact simplify_chain y
    · exact simplify_pos x
    · exact simplify_pos y
    · rw [expand_simplify, expand_simplify, h]

/-! ### slices -/

theorem slicesFrom_length (i : Nat) (x : Irreps) : (slicesFrom i x).length = x.length := by
  induction x generalizing i with
  | nil => rfl
  | cons m x ih => simp [slicesFrom, ih]

theorem slicesFrom_get (i : Nat) (x : Irreps) (k : Nat) (hk : k < x.length) :
    (slicesFrom i x)[k]? = some (i + dim (x.take k), i + dim (x.take (k + 1))) := by
  induction x generalizing i k with
  | nil => simp at hk
  | cons m x ih =>
    cases k with
    | zero => simp [slicesFrom, dim, MulIrrep.dim]
    | succ k =>
      simp only [List.length_cons] at hk
      simp only [slicesFrom, List.getElem?_cons_succ]
      rw [ih _ _ (by omega)]
      simp only [List.take_succ_cons, dim_cons]
      simp [Nat.add_assoc]

/-! ### slice_by_mul -/

theorem ofPairs_nil : ofPairs [] = .ok [] := rfl

theorem ofPairs_cons (m : Int) (ir : Irrep) (ps : List (Int × Irrep)) :
    ofPairs ((m, ir) :: ps) =
      if 0 ≤ m then
        match ofPairs ps with
        | .ok y => .ok (⟨m.toNat, ir⟩ :: y)
        | .error e => .error e
      else .error .valueError := by
  unfold ofPairs
  simp only [List.mapM_cons]
  by_cases h : 0 ≤ m
  · simp only [h, if_true]
    cases List.mapM (fun x : Int × Irrep => if 0 ≤ x.1 then
      Except.ok (ε := PyErr) (⟨x.1.toNat, x.2⟩ : MulIrrep) else Except.error PyErr.valueError) ps <;> rfl
  · simp only [h, if_false]; rfl

theorem sliceByMulLoop_spec (start stop : Nat) (hs : start ≤ stop) (i : Nat) (x : Irreps) :
    ∃ y, ofPairs (sliceByMulLoop start stop i x) = .ok y ∧
      expand y = pySlice (expand x) (start - i) (stop - i) := by
  induction x generalizing i with
  | nil => exact ⟨[], rfl, by simp [pySlice]⟩
  | cons m x ih =>
    obtain ⟨y, hy, he⟩ := ih (i + m.mul)
    have hcons : ∀ k : Int, 0 ≤ k →
        ofPairs ((k, m.ir) :: sliceByMulLoop start stop (i + m.mul) x) = .ok (⟨k.toNat, m.ir⟩ :: y) := by
      intro k hk
      rw [ofPairs_cons, if_pos hk, hy]
    unfold sliceByMulLoop
    simp only
    split
    · next h =>
      refine ⟨_, hcons _ (by omega), ?_⟩
      simp only [Int.toNat_natCast, expand_cons]
      rw [he]
      unfold pySlice
      have e1 : start - i = 0 := by omega
      have e2 : start - (i + m.mul) = 0 := by omega
      rw [e1, e2, List.take_append]
      simp only [List.drop_zero, List.length_replicate, List.take_replicate]
      have e3 : min (stop - i) m.mul = m.mul := by omega
      have e4 : stop - i - m.mul = stop - (i + m.mul) := by omega
      rw [e3, e4]
    · next h =>
      split
      · next h2 =>
        refine ⟨_, hcons _ (by omega), ?_⟩
        simp only [expand_cons]
        rw [he]
        unfold pySlice
        rw [List.take_append, List.drop_append]
        simp only [List.length_replicate, List.take_replicate, List.drop_replicate]
        have e1 : ((min (stop : Int) (i + m.mul : Nat)) - max (start : Int) (i : Nat)).toNat =
          min (stop - i) m.mul - (start - i) := by omega
        have e3 : stop - i - m.mul = stop - (i + m.mul) := by omega
        rw [e3]
        congr 1
        · congr 1
        · by_cases hc : stop ≤ i + m.mul
          · have : stop - (i + m.mul) = 0 := by omega
            simp [this]
          · congr 1
            omega
      · next h2 =>
        refine ⟨y, hy, ?_⟩
        rw [he, expand_cons]
        unfold pySlice
        rw [List.take_append, List.drop_append]
        simp only [List.length_replicate, List.take_replicate, List.drop_replicate]
        have e0 : min (stop - i) m.mul - (start - i) = 0 := by omega
        have e3 : stop - i - m.mul = stop - (i + m.mul) := by omega
        rw [e0, e3, List.replicate_zero, List.nil_append]
        by_cases hc : stop ≤ i + m.mul
        · have : stop - (i + m.mul) = 0 := by omega
          simp [this]
        · congr 1
          omega

/-- A reversed slice: nothing is selected, or a term strictly contains both bounds and the
negative multiplicity is refused. -/
theorem sliceByMulLoop_reversed (start stop : Nat) (hs : stop < start) (i : Nat) (x : Irreps) :
    ofPairs (sliceByMulLoop start stop i x) = .ok [] ∨
    ofPairs (sliceByMulLoop start stop i x) = .error .valueError := by
  induction x generalizing i with
  | nil => left; rfl
  | cons m x ih =>
    unfold sliceByMulLoop
    simp only
    split
    · omega
    · split
      · right
        rw [ofPairs_cons, if_neg (by omega)]
      · exact ih _

end Irreps
end E3nn

import Verif.Spec.Einsum
import Mathlib.Tactic.Ring
import Mathlib.Tactic.Linarith

namespace E3nn.Ein

theorem mem_pairs {e : Eqn} {xs : List Tensor} {q : Char × ℕ} :
    q ∈ pairs e xs ↔ ∃ p ∈ e.ins.zip xs, q ∈ p.1.zip p.2.shape := by
  unfold pairs
  rw [← List.map_uncurry_zip_eq_zipWith]
  simp only [List.mem_flatten, List.mem_map]
  constructor
  · rintro ⟨l, ⟨p, hp, rfl⟩, h⟩
    exact ⟨p, hp, h⟩
  · rintro ⟨p, hp, h⟩
    exact ⟨_, ⟨p, hp, rfl⟩, h⟩

theorem lookup_mem {l : List (Char × ℕ)} {c : Char} {n : ℕ} (h : l.lookup c = some n) : (c, n) ∈ l := by
  induction l with
  | nil => simp at h
  | cons a l ih =>
    obtain ⟨b, m⟩ := a
    rw [List.lookup_cons] at h
    by_cases hb : c = b
    · subst hb; simp at h; subst h; exact List.mem_cons_self
    · have : (c == b) = false := by simpa using hb
      rw [this] at h
      exact List.mem_cons_of_mem _ (ih h)

theorem lookup_isSome {l : List (Char × ℕ)} {c : Char} {n : ℕ} (h : (c, n) ∈ l) : ∃ m, l.lookup c = some m := by
  induction l with
  | nil => simp at h
  | cons a l ih =>
    obtain ⟨b, m⟩ := a
    rw [List.lookup_cons]
    by_cases hb : c = b
    · subst hb; exact ⟨m, by simp⟩
    · have : (c == b) = false := by simpa using hb
      rw [this]
      apply ih
      rcases List.mem_cons.mp h with h | h
      · exact absurd (by simpa using congrArg Prod.fst h) hb
      · exact h

theorem size_of_fits {e : Eqn} {xs : List Tensor} (h : Fits e xs) {p : List Char × Tensor} (hp : p ∈ e.ins.zip xs) {c : Char} {n : ℕ}
    (hc : (c, n) ∈ p.1.zip p.2.shape) : size e xs c = n := by
  obtain ⟨m, hm⟩ := lookup_isSome (mem_pairs.mpr ⟨p, hp, hc⟩)
  obtain ⟨q, hq, hcm⟩ := mem_pairs.mp (lookup_mem hm)
  unfold size
  rw [hm]
  exact h.lengths q hq p hp c m n hcm hc

theorem check_iff (e : Eqn) (xs : List Tensor) : check e xs = .ok () ↔ Fits e xs := by
  unfold check
  constructor
  · intro h
    split_ifs at h with h1 h2 h3 h4 h5 h6
    push Not at h1
    simp only [List.any_eq_true, not_exists, not_and, bne_iff_ne, ne_eq, not_not] at h2 h3
    simp only [Bool.not_eq_true] at h6
    simp only [List.any_eq_false, Bool.not_eq_true', Bool.not_eq_false] at h6
    refine ⟨h1.1, h1.2, h2, ?_, h5, ?_⟩
    · intro p hp q hq c m n hm hn
      exact (h3 (c, m) (mem_pairs.mpr ⟨p, hp, hm⟩)).symm.trans (h3 (c, n) (mem_pairs.mpr ⟨q, hq, hn⟩))
    · intro c hc
      have := h6 c hc
      simpa using this
  · intro h
    rw [if_neg, if_neg, if_neg, if_neg, if_neg]
    · simp only [Bool.not_eq_true, List.any_eq_false, Bool.not_eq_true', Bool.not_eq_false]
      intro c hc
      simpa using h.out_mem c hc
    · rw [not_not]; exact h.out_nodup
    · simp only [List.any_eq_true, not_exists, not_and, bne_iff_ne, ne_eq, not_not]
      rintro ⟨c, n⟩ hq
      obtain ⟨p, hp, hc⟩ := mem_pairs.mp hq
      exact size_of_fits h hp hc
    · simp only [List.any_eq_true, not_exists, not_and, bne_iff_ne, ne_eq, not_not]
      exact h.rank
    · push Not
      exact ⟨h.nonempty, h.number⟩

theorem einsum_of_fits {e : Eqn} {xs : List Tensor} (h : Fits e xs) : einsum e xs =
    .ok ⟨e.out.map (size e xs), fun o => sumOver (size e xs) (prodAt e.ins xs) (summed e) (outEnv e.out o)⟩ := by
  unfold einsum
  rw [(check_iff e xs).mpr h]

/-- The assignments reached by `sumOver`. -/
def Reach (n : Char → ℕ) (cs : List Char) (s : Char → ℕ) : Set (Char → ℕ) :=
  {r | (∀ c ∈ cs, r c < n c) ∧ ∀ c, c ∉ cs → r c = s c}

theorem reach_cons (n : Char → ℕ) (c : Char) (cs : List Char) (hc : c ∉ cs) (s : Char → ℕ) :
    Reach n (c :: cs) s = ⋃ k ∈ Finset.range (n c), Reach n cs (Function.update s c k) := by
  ext r
  simp only [Reach, Set.mem_setOf_eq, Set.mem_iUnion, Finset.mem_range, List.mem_cons, exists_prop]
  constructor
  · rintro ⟨h1, h2⟩
    refine ⟨r c, h1 c (Or.inl rfl), fun d hd => h1 d (Or.inr hd), fun d hd => ?_⟩
    by_cases h : d = c
    · subst h; simp
    · rw [Function.update_of_ne h]; exact h2 d (by simp [h, hd])
  · rintro ⟨k, hk, h1, h2⟩
    refine ⟨fun d hd => ?_, fun d hd => ?_⟩
    · rcases hd with rfl | hd
      · rw [h2 _ hc]; simpa using hk
      · exact h1 d hd
    · push Not at hd
      rw [h2 d hd.2, Function.update_of_ne hd.1]

theorem reach_finite (n : Char → ℕ) (cs : List Char) (hn : cs.Nodup) (s : Char → ℕ) : (Reach n cs s).Finite := by
  induction cs generalizing s with
  | nil =>
    apply (Set.finite_singleton s).subset
    rintro r ⟨_, h⟩
    exact funext fun c => h c (by simp)
  | cons c cs ih =>
    rw [List.nodup_cons] at hn
    rw [reach_cons n c cs hn.1]
    exact Set.Finite.biUnion (Finset.finite_toSet _) fun k _ => ih hn.2 _

theorem sumOver_eq (n : Char → ℕ) (F : (Char → ℕ) → ℝ) (cs : List Char) (hn : cs.Nodup) (s : Char → ℕ) :
    sumOver n F cs s = ∑ᶠ r ∈ Reach n cs s, F r := by
  induction cs generalizing s with
  | nil =>
    have : Reach n [] s = {s} := by
      ext r
      simp only [Reach, Set.mem_setOf_eq, List.not_mem_nil, Set.mem_singleton_iff]
      constructor
      · rintro ⟨_, h⟩; exact funext fun c => h c (by simp)
      · rintro rfl; simp
    rw [this, finsum_mem_singleton, sumOver]
  | cons c cs ih =>
    rw [List.nodup_cons] at hn
    rw [reach_cons n c cs hn.1, sumOver]
    rw [show (⋃ k ∈ Finset.range (n c), Reach n cs (Function.update s c k)) =
      ⋃ k ∈ ((Finset.range (n c) : Finset ℕ) : Set ℕ), Reach n cs (Function.update s c k) by simp]
    rw [finsum_mem_biUnion, finsum_mem_coe_finset]
    · exact Finset.sum_congr rfl fun k _ => ih hn.2 _
    · intro k _ k' _ hk
      rw [Function.onFun, Set.disjoint_left]
      rintro r ⟨_, h⟩ ⟨_, h'⟩
      apply hk
      have := (h c hn.1).symm.trans (h' c hn.1)
      simpa using this
    · exact Finset.finite_toSet _
    · exact fun k _ => reach_finite n cs hn.2 _

theorem sumOver_congr (n : Char → ℕ) (F G : (Char → ℕ) → ℝ) (cs : List Char) (hn : cs.Nodup) (s : Char → ℕ)
    (h : ∀ r ∈ Reach n cs s, F r = G r) : sumOver n F cs s = sumOver n G cs s := by
  rw [sumOver_eq n F cs hn, sumOver_eq n G cs hn]
  exact finsum_mem_congr rfl h

theorem sumOver_sum {ι : Type} (l : List ι) (n : Char → ℕ) (F : ι → (Char → ℕ) → ℝ) (cs : List Char) (s : Char → ℕ) :
    (l.map fun i => sumOver n (F i) cs s).sum = sumOver n (fun r => (l.map fun i => F i r).sum) cs s := by
  induction cs generalizing s with
  | nil => rfl
  | cons c cs ih =>
    simp only [sumOver]
    rw [← Finset.sum_congr rfl fun k _ => ih (Function.update s c k)]
    clear ih
    induction l with
    | nil => simp
    | cons a l ihl => simp only [List.map_cons, List.sum_cons, ihl, Finset.sum_add_distrib]

theorem deriv_sumOver (n : Char → ℕ) (F : ℝ → (Char → ℕ) → ℝ) (F' : (Char → ℕ) → ℝ) (t : ℝ) (cs : List Char) (hn : cs.Nodup)
    (s : Char → ℕ) (h : ∀ r ∈ Reach n cs s, HasDerivAt (fun u => F u r) (F' r) t) :
    HasDerivAt (fun u => sumOver n (F u) cs s) (sumOver n F' cs s) t := by
  induction cs generalizing s with
  | nil => exact h s ⟨by simp, fun _ _ => rfl⟩
  | cons c cs ih =>
    rw [List.nodup_cons] at hn
    simp only [sumOver]
    apply HasDerivAt.fun_sum
    intro k hk
    apply ih hn.2
    intro r hr
    apply h
    rw [reach_cons n c cs hn.1]
    simp only [Set.mem_iUnion]
    exact ⟨k, hk, hr⟩

theorem deriv_prodAt (ins : List (List Char)) (X : List (ℝ → Tensor)) (xs xds : List Tensor) (t : ℝ) (s : Char → ℕ)
    (h1 : ins.length = xs.length) (h2 : X.length = xs.length) (h3 : xds.length = xs.length)
    (h : ∀ p ∈ ins.zip (X.zip (xs.zip xds)), (p.2.1 t).val (p.1.map s) = p.2.2.1.val (p.1.map s) ∧
      HasDerivAt (fun u => (p.2.1 u).val (p.1.map s)) (p.2.2.2.val (p.1.map s)) t) :
    prodAt ins (X.map (· t)) s = prodAt ins xs s ∧
    HasDerivAt (fun u => prodAt ins (X.map (· u)) s)
      ((xds.zipIdx.map fun p => prodAt ins (xs.take p.2 ++ [p.1] ++ xs.drop (p.2 + 1)) s).sum) t := by
  induction ins generalizing X xs xds with
  | nil =>
    have hx : xs = [] := List.eq_nil_of_length_eq_zero (by simpa using h1.symm)
    subst hx
    have hd : xds = [] := List.eq_nil_of_length_eq_zero (by simpa using h3)
    subst hd
    simp only [prodAt, List.zipWith_nil_left, List.prod_nil, List.zipIdx_nil, List.map_nil, List.sum_nil, true_and]
    exact hasDerivAt_const _ _
  | cons l ins ih =>
    cases xs with
    | nil => simp at h1
    | cons x xs =>
    cases X with
    | nil => simp at h2
    | cons f X =>
    cases xds with
    | nil => simp at h3
    | cons d xds =>
    simp only [List.length_cons, Nat.add_right_cancel_iff] at h1 h2 h3
    obtain ⟨i1, i2⟩ := ih X xs xds h1 h2 h3 fun p hp => h p (List.mem_cons_of_mem _ hp)
    obtain ⟨g1, g2⟩ := h (l, f, x, d) (by simp)
    have hp : ∀ u, prodAt (l :: ins) ((f :: X).map (· u)) s = (f u).val (l.map s) * prodAt ins (X.map (· u)) s := fun u => by simp [prodAt]
    have hq : ∀ (a : Tensor) (as : List Tensor), prodAt (l :: ins) (a :: as) s = a.val (l.map s) * prodAt ins as s := fun a as => by
      simp [prodAt]
    refine ⟨by rw [hp, hq]; simp only at g1; rw [g1, i1], ?_⟩
    simp only [hp]
    have := g2.mul i2
    refine this.congr_deriv ?_
    simp only at g1
    rw [List.zipIdx_cons, List.map_cons, List.sum_cons]
    simp only [List.take_zero, List.nil_append, List.singleton_append, zero_add, List.drop_one, List.tail_cons, hq]
    rw [g1, i1]
    congr 1
    rw [List.zipIdx_succ, List.map_map, ← List.sum_map_mul_left]
    rfl

/-- The combination `a d + b d'` of two arrays, used in the statement that the tangent is linear. -/
theorem lin_prodAt (a b : ℝ) (ins : List (List Char)) (xs ds ds' : List Tensor) (s : Char → ℕ)
    (h1 : ins.length = xs.length) (h2 : ds.length = xs.length) (h3 : ds'.length = xs.length) :
    (((List.zipWith (fun d d' => (⟨d.shape, fun i => a * d.val i + b * d'.val i⟩ : Tensor)) ds ds').zipIdx.map fun p =>
        prodAt ins (xs.take p.2 ++ [p.1] ++ xs.drop (p.2 + 1)) s).sum) =
      a * (ds.zipIdx.map fun p => prodAt ins (xs.take p.2 ++ [p.1] ++ xs.drop (p.2 + 1)) s).sum +
      b * (ds'.zipIdx.map fun p => prodAt ins (xs.take p.2 ++ [p.1] ++ xs.drop (p.2 + 1)) s).sum := by
  induction ins generalizing xs ds ds' with
  | nil =>
    have hx : xs = [] := List.eq_nil_of_length_eq_zero (by simpa using h1.symm)
    subst hx
    have hd : ds = [] := List.eq_nil_of_length_eq_zero (by simpa using h2)
    have hd' : ds' = [] := List.eq_nil_of_length_eq_zero (by simpa using h3)
    subst hd hd'
    simp
  | cons l ins ih =>
    cases xs with
    | nil => simp at h1
    | cons x xs =>
    cases ds with
    | nil => simp at h2
    | cons d ds =>
    cases ds' with
    | nil => simp at h3
    | cons d' ds' =>
    simp only [List.length_cons, Nat.add_right_cancel_iff] at h1 h2 h3
    have hq : ∀ (a : Tensor) (as : List Tensor), prodAt (l :: ins) (a :: as) s = a.val (l.map s) * prodAt ins as s := fun a as => by
      simp [prodAt]
    have hstep : ∀ (c : Tensor) (cs : List Tensor), ((c :: cs).zipIdx.map fun p =>
        prodAt (l :: ins) ((x :: xs).take p.2 ++ [p.1] ++ (x :: xs).drop (p.2 + 1)) s).sum =
        c.val (l.map s) * prodAt ins xs s +
          x.val (l.map s) * (cs.zipIdx.map fun p => prodAt ins (xs.take p.2 ++ [p.1] ++ xs.drop (p.2 + 1)) s).sum := by
      intro c cs
      rw [List.zipIdx_cons, List.map_cons, List.sum_cons]
      simp only [List.take_zero, List.nil_append, List.singleton_append, zero_add, List.drop_one, List.tail_cons, hq]
      congr 1
      rw [List.zipIdx_succ, List.map_map, ← List.sum_map_mul_left]
      rfl
    rw [List.zipWith_cons_cons, hstep, hstep, hstep, ih xs ds ds' h1 h2 h3]
    ring

theorem sumOver_lin (a b : ℝ) (n : Char → ℕ) (F G : (Char → ℕ) → ℝ) (cs : List Char) (s : Char → ℕ) :
    sumOver n (fun r => a * F r + b * G r) cs s = a * sumOver n F cs s + b * sumOver n G cs s := by
  induction cs generalizing s with
  | nil => rfl
  | cons c cs ih => simp only [sumOver, ih, Finset.sum_add_distrib, Finset.mul_sum]

end E3nn.Ein

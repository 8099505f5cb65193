import Verif.Props.C04_C11

/-!
# C10: which cuts `slice_by_dim` accepts
-/

namespace E3nn

open Irreps

/-- A component that is the first one of an irrep (or one past the last component). -/
def OnBorder (x : Irreps) (p : Nat) : Prop := ∃ a, a ≤ (expand x).length ∧ dimOf ((expand x).take a) = p

/-- Both bounds lie in the same term `mul x ir`, at a distance that is a multiple of the dimension of `ir`. -/
def InTerm (x : Irreps) (start stop : Nat) (ir : Irrep) : Prop :=
  ∃ (pre : Irreps) (m : MulIrrep) (post : Irreps), x = pre ++ m :: post ∧ m.ir = ir ∧ dimOf (expand pre) ≤ start ∧ stop ≤ dimOf (expand pre) + m.mul * (2 * ir.l + 1) ∧ (2 * ir.l + 1) ∣ stop - start

namespace C10

theorem dim_cons' (m : MulIrrep) (x : Irreps) : Irreps.dim (m :: x) = m.mul * m.ir.dim + x.dim := by simp [Irreps.dim]

theorem dim_app (x y : Irreps) : Irreps.dim (x ++ y) = x.dim + y.dim := by simp [Irreps.dim]

/-- The irreps that the loop keeps. -/
def contrib (start stop : Nat) : Nat → Irreps → List Irrep
  | _, [] => []
  | i, m :: ms => List.replicate ((min stop (i + m.mul * m.ir.dim) - max start i) / m.ir.dim) m.ir ++ contrib start stop (i + m.mul * m.ir.dim) ms

/-- Every term that is cut is cut at a distance that is a multiple of the dimension. -/
def Fits (start stop : Nat) : Nat → Irreps → Prop
  | _, [] => True
  | i, m :: ms => (start < i + m.mul * m.ir.dim ∧ i < stop → m.ir.dim ∣ min stop (i + m.mul * m.ir.dim) - max start i) ∧ Fits start stop (i + m.mul * m.ir.dim) ms

theorem dim_pos (ir : Irrep) : 0 < ir.dim := by unfold Irrep.dim; omega

theorem ofPairs_cons (n : Nat) (ir : Irrep) (ps : List (Int × Irrep)) : ofPairs (((n : Int), ir) :: ps) = (ofPairs ps).map fun y => ⟨n, ir⟩ :: y := by
  unfold ofPairs
  rw [List.mapM_cons]
  simp only [Int.natCast_nonneg, if_true, Int.toNat_natCast]
  cases List.mapM (fun x : Int × Irrep => if 0 ≤ x.1 then (Except.ok ⟨x.1.toNat, x.2⟩ : Except PyErr MulIrrep) else Except.error PyErr.valueError) ps <;> rfl

theorem loop_spec (start stop : Nat) (hle : start ≤ stop) (i : Nat) (x : Irreps) :
    (Fits start stop i x → ∃ ps y, sliceByDimLoop start stop i x = .ok ps ∧ ofPairs ps = .ok y ∧ expand y = contrib start stop i x) ∧
    (¬ Fits start stop i x → sliceByDimLoop start stop i x = .error .valueError) := by
  induction x generalizing i with
  | nil => exact ⟨fun _ => ⟨[], [], rfl, rfl, rfl⟩, fun h => absurd trivial h⟩
  | cons m x ih =>
    obtain ⟨ih1, ih2⟩ := ih (i + m.mul * m.ir.dim)
    have hd := dim_pos m.ir
    have hmd : m.dim = m.mul * m.ir.dim := rfl
    have emp : ∀ k, Irrep.dim m.ir * k / Irrep.dim m.ir = k := fun k => Nat.mul_div_cancel_left k hd
    unfold sliceByDimLoop
    rw [hmd]
    by_cases hc : start ≤ i ∧ i + m.mul * m.ir.dim ≤ stop
    · rw [if_pos hc]
      have e : min stop (i + m.mul * m.ir.dim) - max start i = m.mul * m.ir.dim := by omega
      constructor
      · rintro ⟨-, h2⟩
        obtain ⟨ps, y, p1, p2, p3⟩ := ih1 h2
        refine ⟨_, _, by rw [p1]; rfl, by rw [ofPairs_cons, p2]; rfl, ?_⟩
        unfold contrib
        rw [e, Nat.mul_div_cancel _ hd, ← p3]
        rfl
      · intro h
        rw [ih2 fun h2 => h ⟨fun _ => by rw [e]; exact Dvd.intro_left _ rfl, h2⟩]; rfl
    · rw [if_neg hc]
      by_cases hc2 : start < i + m.mul * m.ir.dim ∧ i < stop
      · rw [if_pos hc2]
        have hcast : ((min stop (i + m.mul * m.ir.dim) : Nat) : Int) - ((max start i : Nat) : Int) = ((min stop (i + m.mul * m.ir.dim) - max start i : Nat) : Int) := by omega
        dsimp only
        have hmm : ((min (stop : Int) ((i : Int) + ((m.mul * m.ir.dim : Nat) : Int))) - max (start : Int) (i : Int)) = ((min stop (i + m.mul * m.ir.dim) - max start i : Nat) : Int) := by
          rw [← hcast]; push_cast; rfl
        rw [hmm]
        generalize hk : min stop (i + m.mul * m.ir.dim) - max start i = k
        by_cases hdv : m.ir.dim ∣ k
        · rw [if_neg (by push Not; exact Int.emod_eq_zero_of_dvd (by exact_mod_cast hdv))]
          constructor
          · rintro ⟨-, h2⟩
            obtain ⟨ps, y, p1, p2, p3⟩ := ih1 h2
            refine ⟨((k / m.ir.dim : Nat) , m.ir) :: ps, _, by rw [p1]; rfl, by rw [ofPairs_cons, p2]; rfl, ?_⟩
            unfold contrib
            rw [hk, ← p3]
            rfl
          · intro h
            rw [ih2 fun h2 => h ⟨fun _ => by rw [hk]; exact hdv, h2⟩]; rfl
        · rw [if_pos (by intro h; exact hdv (by exact_mod_cast Int.dvd_of_emod_eq_zero h))]
          exact ⟨fun h => absurd (h.1 hc2) (by rw [hk]; exact hdv), fun _ => rfl⟩
      · rw [if_neg hc2]
        have e : min stop (i + m.mul * m.ir.dim) - max start i = 0 := by omega
        constructor
        · rintro ⟨-, h2⟩
          obtain ⟨ps, y, p1, p2, p3⟩ := ih1 h2
          refine ⟨ps, y, p1, p2, ?_⟩
          unfold contrib
          rw [e, p3]; simp
        · intro h
          exact ih2 fun h2 => h ⟨fun h => absurd h hc2, h2⟩

theorem fits_iff (start stop i : Nat) (x : Irreps) : Fits start stop i x ↔ ∀ (pre : Irreps) (m : MulIrrep) (post : Irreps), x = pre ++ m :: post →
    (start < i + pre.dim + m.mul * m.ir.dim ∧ i + pre.dim < stop → m.ir.dim ∣ min stop (i + pre.dim + m.mul * m.ir.dim) - max start (i + pre.dim)) := by
  induction x generalizing i with
  | nil => simp [Fits]
  | cons m x ih =>
    unfold Fits
    rw [ih]
    constructor
    · rintro ⟨h1, h2⟩ pre m' post e
      cases pre with
      | nil =>
        simp only [List.nil_append, List.cons.injEq] at e
        obtain ⟨rfl, rfl⟩ := e
        simpa [Irreps.dim] using h1
      | cons m'' pre =>
        simp only [List.cons_append, List.cons.injEq] at e
        obtain ⟨rfl, e⟩ := e
        have := h2 pre m' post e
        rw [dim_cons', ← Nat.add_assoc]
        exact this
    · intro h
      refine ⟨by simpa [Irreps.dim] using h [] m x rfl, fun pre m' post e => ?_⟩
      have := h (m :: pre) m' post (by rw [e]; rfl)
      rw [dim_cons', ← Nat.add_assoc] at this
      exact this

theorem find_left (x : Irreps) (p : Nat) (h : p < x.dim) : ∃ (pre : Irreps) (m : MulIrrep) (post : Irreps), x = pre ++ m :: post ∧ pre.dim ≤ p ∧ p < pre.dim + m.mul * m.ir.dim := by
  induction x generalizing p with
  | nil => simp [Irreps.dim] at h
  | cons m x ih =>
    by_cases hp : p < m.mul * m.ir.dim
    · exact ⟨[], m, x, rfl, by simp [Irreps.dim], by simpa [Irreps.dim] using hp⟩
    · rw [dim_cons'] at h
      obtain ⟨pre, m', post, e, h1, h2⟩ := ih (p - m.mul * m.ir.dim) (by omega)
      exact ⟨m :: pre, m', post, by rw [e]; rfl, by rw [dim_cons']; omega, by rw [dim_cons']; omega⟩

theorem border_of {x pre post : Irreps} {m : MulIrrep} (e : x = pre ++ m :: post) {p : Nat} (h1 : pre.dim ≤ p) (h2 : p ≤ pre.dim + m.mul * m.ir.dim)
    (hd : m.ir.dim ∣ p - pre.dim) : OnBorder x p := by
  obtain ⟨k, hk⟩ := hd
  have hkm : k ≤ m.mul := by
    have : m.ir.dim * k ≤ m.ir.dim * m.mul := by rw [Nat.mul_comm _ m.mul]; omega
    exact Nat.le_of_mul_le_mul_left this (dim_pos _)
  have hx : expand x = expand pre ++ (List.replicate m.mul m.ir ++ expand post) := by rw [e, expand_append]; rfl
  refine ⟨(expand pre).length + k, ?_, ?_⟩
  · rw [hx]; simp; omega
  · rw [hx, List.take_length_add_append, dimOf_append, List.take_append_of_le_length (by simpa using hkm), List.take_replicate, Nat.min_eq_left hkm, ← Irreps.dim_eq_dimOf_expand]
    have : dimOf (List.replicate k m.ir) = k * m.ir.dim := by
      clear hkm hk
      induction k with
      | zero => simp [dimOf]
      | succ k ih => rw [List.replicate_succ, dimOf_cons, ih]; ring
    rw [this, Nat.mul_comm]; omega

theorem dimOf_take_lt {l : List Irrep} {a b : Nat} (h : a < b) (hb : b ≤ l.length) : dimOf (l.take a) < dimOf (l.take b) := by
  obtain ⟨d, rfl⟩ := Nat.exists_eq_add_of_lt h
  have h1 : (l.take (a + d + 1)) = l.take a ++ (l.drop a).take (d + 1) := by rw [Nat.add_assoc, List.take_add]
  rw [h1, dimOf_append]
  have : (l.drop a) ≠ [] := by rw [Ne, List.drop_eq_nil_iff]; omega
  obtain ⟨ir, l', e⟩ := List.exists_cons_of_ne_nil this
  rw [e, List.take_succ_cons, dimOf_cons]
  have := dim_pos ir
  omega

theorem border_aligned {x pre post : Irreps} {m : MulIrrep} (e : x = pre ++ m :: post) {p : Nat} (h1 : pre.dim ≤ p) (h2 : p ≤ pre.dim + m.mul * m.ir.dim)
    (hb : OnBorder x p) : m.ir.dim ∣ p - pre.dim := by
  obtain ⟨a, ha, rfl⟩ := hb
  have hx : expand x = expand pre ++ (List.replicate m.mul m.ir ++ expand post) := by rw [e, expand_append]; rfl
  have hpre : dimOf ((expand x).take (expand pre).length) = pre.dim := by rw [hx, List.take_left, Irreps.dim_eq_dimOf_expand]
  have hrep : ∀ k, dimOf (List.replicate k m.ir) = k * m.ir.dim := by
    intro k
    induction k with
    | zero => simp [dimOf]
    | succ k ih => rw [List.replicate_succ, dimOf_cons, ih]; ring
  have hk : ∀ k ≤ m.mul, dimOf ((expand x).take ((expand pre).length + k)) = pre.dim + k * m.ir.dim := by
    intro k hk
    rw [hx, List.take_length_add_append, dimOf_append, List.take_append_of_le_length (by simpa using hk), List.take_replicate, Nat.min_eq_left hk, hrep, ← Irreps.dim_eq_dimOf_expand]
  have hlen : (expand pre).length + m.mul ≤ (expand x).length := by rw [hx]; simp
  rcases Nat.lt_or_ge a (expand pre).length with h | h
  · have := dimOf_take_lt h (by omega : (expand pre).length ≤ (expand x).length)
    rw [hpre] at this; omega
  · obtain ⟨k, rfl⟩ := Nat.exists_eq_add_of_le h
    rcases Nat.lt_or_ge m.mul k with h' | h'
    · have := dimOf_take_lt (by omega : (expand pre).length + m.mul < (expand pre).length + k) ha
      rw [hk m.mul (le_refl _)] at this; omega
    · rw [hk k h', Nat.add_sub_cancel_left]; exact Dvd.intro_left _ rfl

theorem prefix_cases {pre pre' post post' : Irreps} {m m' : MulIrrep} (e : pre ++ m :: post = pre' ++ m' :: post') :
    (pre = pre' ∧ m = m') ∨ pre.dim + m.mul * m.ir.dim ≤ pre'.dim ∨ pre'.dim + m'.mul * m'.ir.dim ≤ pre.dim := by
  induction pre generalizing pre' with
  | nil => cases pre' with
    | nil => simp at e; exact Or.inl ⟨rfl, e.1⟩
    | cons a pre' =>
      simp only [List.nil_append, List.cons_append, List.cons.injEq] at e
      obtain ⟨rfl, e⟩ := e
      right; left; rw [dim_cons']; simp [Irreps.dim]
  | cons a pre ih => cases pre' with
    | nil =>
      simp only [List.nil_append, List.cons_append, List.cons.injEq] at e
      obtain ⟨rfl, e⟩ := e
      right; right; rw [dim_cons']; simp [Irreps.dim]
    | cons b pre' =>
      simp only [List.cons_append, List.cons.injEq] at e
      obtain ⟨rfl, e⟩ := e
      rw [dim_cons', dim_cons']
      rcases ih e with ⟨h1, h2⟩ | h | h
      · exact Or.inl ⟨by rw [h1], h2⟩
      · right; left; omega
      · right; right; omega

theorem dim_irrep (ir : Irrep) : ir.dim = 2 * ir.l + 1 := rfl

theorem fits_borders (x : Irreps) (start stop : Nat) (hle : start ≤ stop) (hstop : stop ≤ x.dim) :
    Fits start stop 0 x ↔ (OnBorder x start ∧ OnBorder x stop) ∨ ∃ ir, InTerm x start stop ir := by
  rw [fits_iff]
  simp only [Nat.zero_add]
  constructor
  · intro h
    by_cases hex : ∃ ir, InTerm x start stop ir
    · exact Or.inr hex
    left
    have hno : ∀ (pre : Irreps) (m : MulIrrep) (post : Irreps), x = pre ++ m :: post → pre.dim ≤ start → pre.dim + m.mul * m.ir.dim < stop := by
      intro pre m post e h1
      by_contra h2
      apply hex
      refine ⟨m.ir, pre, m, post, e, rfl, by rw [← Irreps.dim_eq_dimOf_expand]; exact h1, ?_, ?_⟩
      · rw [← dim_irrep, ← Irreps.dim_eq_dimOf_expand]; omega
      · by_cases h3 : start < pre.dim + m.mul * m.ir.dim ∧ pre.dim < stop
        · have := h pre m post e h3
          rw [Nat.min_eq_left (by omega), Nat.max_eq_left h1] at this
          exact this
        · have : stop - start = 0 := by omega
          rw [this]; exact Dvd.intro_left 0 (by simp)
    constructor
    · rcases Nat.lt_or_ge start x.dim with h1 | h1
      · obtain ⟨pre, m, post, e, g1, g2⟩ := find_left x start h1
        have g3 := hno pre m post e g1
        have := h pre m post e ⟨g2, by omega⟩
        rw [Nat.min_eq_right (by omega), Nat.max_eq_left g1] at this
        apply border_of e g1 (by omega)
        have h5 : m.ir.dim ∣ m.mul * m.ir.dim := Dvd.intro_left _ rfl
        have h6 : start - pre.dim = m.mul * m.ir.dim - (pre.dim + m.mul * m.ir.dim - start) := by omega
        rw [h6]; exact Nat.dvd_sub h5 this
      · have : start = x.dim := by omega
        exact ⟨(expand x).length, le_refl _, by rw [List.take_length, ← Irreps.dim_eq_dimOf_expand, this]⟩
    · rcases Nat.eq_zero_or_pos stop with h1 | h1
      · exact ⟨0, by omega, by rw [h1]; rfl⟩
      · obtain ⟨pre, m, post, e, g1, g2⟩ := find_left x (stop - 1) (by omega)
        have g3 : start < pre.dim := by
          by_contra g3
          have := hno pre m post e (by omega)
          omega
        have := h pre m post e ⟨by omega, by omega⟩
        rw [Nat.min_eq_left (by omega), Nat.max_eq_right (by omega)] at this
        exact border_of e (by omega) (by omega) this
  · rintro (⟨h1, h2⟩ | ⟨ir, pre', m', post', e', rfl, g1, g2, g3⟩) pre m post e ⟨k1, k2⟩
    · have a1 : ∀ p, OnBorder x p → pre.dim ≤ p → p ≤ pre.dim + m.mul * m.ir.dim → m.ir.dim ∣ p - pre.dim := fun p hb b1 b2 => border_aligned e b1 b2 hb
      have h5 : m.ir.dim ∣ m.mul * m.ir.dim := Dvd.intro_left _ rfl
      have b1 : m.ir.dim ∣ min stop (pre.dim + m.mul * m.ir.dim) - pre.dim := by
        rcases Nat.le_total stop (pre.dim + m.mul * m.ir.dim) with h | h
        · rw [Nat.min_eq_left h]; exact a1 _ h2 (by omega) h
        · rw [Nat.min_eq_right h, Nat.add_sub_cancel_left]; exact h5
      have b2 : m.ir.dim ∣ max start pre.dim - pre.dim := by
        rcases Nat.le_total start pre.dim with h | h
        · rw [Nat.max_eq_right h, Nat.sub_self]; exact Dvd.intro_left 0 (by simp)
        · rw [Nat.max_eq_left h]; exact a1 _ h1 h (by omega)
      have : min stop (pre.dim + m.mul * m.ir.dim) - max start pre.dim = (min stop (pre.dim + m.mul * m.ir.dim) - pre.dim) - (max start pre.dim - pre.dim) := by omega
      rw [this]; exact Nat.dvd_sub b1 b2
    · rw [← Irreps.dim_eq_dimOf_expand] at g1 g2
      rw [← dim_irrep] at g2 g3
      rcases prefix_cases (e'.symm.trans e) with ⟨rfl, rfl⟩ | h | h
      · rw [Nat.min_eq_left g2, Nat.max_eq_left g1]; exact g3
      · omega
      · omega

theorem contrib_append (start stop i : Nat) (x y : Irreps) : contrib start stop i (x ++ y) = contrib start stop i x ++ contrib start stop (i + x.dim) y := by
  induction x generalizing i with
  | nil => simp [contrib, Irreps.dim]
  | cons m x ih => simp only [List.cons_append, contrib, ih, dim_cons', List.append_assoc, Nat.add_assoc]

theorem contrib_out (start stop i : Nat) (x : Irreps) (h : i + x.dim ≤ start ∨ stop ≤ i) : contrib start stop i x = [] := by
  induction x generalizing i with
  | nil => rfl
  | cons m x ih =>
    rw [dim_cons'] at h
    unfold contrib
    rw [ih _ (by omega)]
    have : min stop (i + m.mul * m.ir.dim) - max start i = 0 := by omega
    rw [this]; simp

theorem contrib_in {x : Irreps} {start stop : Nat} {ir : Irrep} (h : InTerm x start stop ir) : contrib start stop 0 x = List.replicate ((stop - start) / (2 * ir.l + 1)) ir := by
  obtain ⟨pre, m, post, rfl, rfl, g1, g2, g3⟩ := h
  rw [← Irreps.dim_eq_dimOf_expand] at g1 g2
  rw [contrib_append, contrib_out _ _ _ pre (by omega), contrib, contrib_out _ _ _ post (by right; rw [dim_irrep]; omega), Nat.min_eq_left (by rw [dim_irrep]; omega),
    Nat.max_eq_left (by omega)]
  simp [dim_irrep]

end C10

/-- **C10 (what is accepted).** `slice_by_dim[start:stop]` (`start ≤ stop`) returns exactly when both bounds are at irrep borders, or both lie in one term `mul x ir` at a distance
that is a multiple of the dimension of `ir`; every other cut raises `ValueError`. -/
theorem C10_accepts_iff (x : Irreps) (s : PySlice) (hstep : s.stepIsOne) (hle : (s.bounds x.dim).1 ≤ (s.bounds x.dim).2) :
    ((∃ y, x.sliceByDim s = .ok y) ↔ (OnBorder x (s.bounds x.dim).1 ∧ OnBorder x (s.bounds x.dim).2) ∨ ∃ ir, InTerm x (s.bounds x.dim).1 (s.bounds x.dim).2 ir) ∧
    ((¬ ∃ y, x.sliceByDim s = .ok y) → x.sliceByDim s = .error .valueError) := by
  have h0 : s.step ≠ some 0 := by
    intro h; unfold PySlice.stepIsOne at hstep; rw [h] at hstep; simp at hstep
  rw [← C10.fits_borders x _ _ hle (C10_bounds_le s x.dim).2]
  obtain ⟨l1, l2⟩ := C10.loop_spec _ _ hle 0 x
  have hok : C10.Fits (s.bounds x.dim).1 (s.bounds x.dim).2 0 x → ∃ y, x.sliceByDim s = .ok y := by
    intro hf
    obtain ⟨ps, y, p1, p2, p3⟩ := l1 hf
    refine ⟨y, ?_⟩
    unfold sliceByDim
    rw [if_neg h0, if_pos hstep, p1]
    exact p2
  have herr : ¬ C10.Fits (s.bounds x.dim).1 (s.bounds x.dim).2 0 x → x.sliceByDim s = .error .valueError := by
    intro hf
    unfold sliceByDim
    rw [if_neg h0, if_pos hstep, l2 hf]
    rfl
  refine ⟨⟨fun ⟨y, hy⟩ => ?_, hok⟩, fun h => herr fun hf => h (hok hf)⟩
  by_contra hf
  rw [herr hf] at hy; cases hy

/-- **C10 (what is returned).** Between borders, the irreps between them; inside one term, the copies that fit in the distance. -/
theorem C10_returns (x : Irreps) (s : PySlice) (hstep : s.stepIsOne) :
    (∀ a b, a ≤ b → b ≤ (expand x).length → (s.bounds x.dim).1 = dimOf ((expand x).take a) → (s.bounds x.dim).2 = dimOf ((expand x).take b) →
      ∃ y, x.sliceByDim s = .ok y ∧ expand y = pySlice (expand x) a b) ∧
    (∀ ir, (s.bounds x.dim).1 ≤ (s.bounds x.dim).2 → InTerm x (s.bounds x.dim).1 (s.bounds x.dim).2 ir →
      ∃ y, x.sliceByDim s = .ok y ∧ expand y = List.replicate (((s.bounds x.dim).2 - (s.bounds x.dim).1) / (2 * ir.l + 1)) ir) := by
  refine ⟨fun a b hab hb h1 h2 => C10_slice_by_dim x s hstep a b hab hb h1 h2, fun ir hle h => ?_⟩
  have h0 : s.step ≠ some 0 := by
    intro h; unfold PySlice.stepIsOne at hstep; rw [h] at hstep; simp at hstep
  obtain ⟨ps, y, p1, p2, p3⟩ := (C10.loop_spec _ _ hle 0 x).1 ((C10.fits_borders x _ _ hle (C10_bounds_le s x.dim).2).2 (Or.inr ⟨ir, h⟩))
  refine ⟨y, ?_, by rw [p3, C10.contrib_in h]⟩
  unfold sliceByDim
  rw [if_neg h0, if_pos hstep, p1]
  exact p2

/-- Concrete cases: `1x1e+1x2e+3x0e` cut at borders, `2x1e` cut inside a term, and a refused cut. -/
example : OnBorder [⟨1, ⟨1, .e⟩⟩, ⟨1, ⟨2, .e⟩⟩, ⟨3, ⟨0, .e⟩⟩] 3 ∧ InTerm [⟨2, ⟨1, .e⟩⟩] 1 4 ⟨1, .e⟩ ∧
    sliceByDim [⟨1, ⟨1, .e⟩⟩, ⟨1, ⟨2, .e⟩⟩] ⟨some 1, some 4, none⟩ = .error .valueError :=
  ⟨⟨1, by decide, by decide⟩, ⟨[], _, [], rfl, rfl, by decide, by decide, by decide⟩, by decide⟩

end E3nn

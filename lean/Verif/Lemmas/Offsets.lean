import Verif.Lemmas.LinearSem
import Verif.Props.C46
import Verif.Props.C59
import Mathlib.Algebra.BigOperators.Fin
import Mathlib.Tactic.Ring
import Mathlib.Tactic.Linarith

/-! # Positions in the flat array: copy `u`, component `k` of term `i` is at `pos ms i u k` -/

namespace E3nn
open IArr

/-- The position of component `k` of copy `u` of term `i`, of degree `l`. -/
def pos (ms : Irreps) (i l u k : ℕ) : ℕ := Irreps.dim (ms.take i) + (u * (2 * l + 1) + k)

theorem dim_cons' (m : MulIrrep) (ms : Irreps) : Irreps.dim (m :: ms) = m.mul * (2 * m.ir.l + 1) + Irreps.dim ms := by
  simp [Irreps.dim, MulIrrep.dim, Irrep.dim]

theorem pos_zero (m : MulIrrep) (ms : Irreps) (l u k : ℕ) : pos (m :: ms) 0 l u k = u * (2 * l + 1) + k := by
  simp [pos, Irreps.dim]

theorem pos_succ (m : MulIrrep) (ms : Irreps) (i l u k : ℕ) : pos (m :: ms) (i + 1) l u k = m.mul * (2 * m.ir.l + 1) + pos ms i l u k := by
  simp only [pos, List.take_succ_cons, dim_cons']; omega

theorem row_lt {d u n k : ℕ} (hu : u < n) (hk : k < d) : u * d + k < n * d := by
  calc u * d + k < u * d + d := by omega
    _ = (u + 1) * d := by ring
    _ ≤ n * d := Nat.mul_le_mul_right _ hu

theorem pos_lt {ms : Irreps} {i u k : ℕ} {m : MulIrrep} (h : ms[i]? = some m) (hu : u < m.mul) (hk : k < 2 * m.ir.l + 1) :
    pos ms i m.ir.l u k < Irreps.dim ms := by
  induction ms generalizing i with
  | nil => simp at h
  | cons m' ms ih =>
    rw [dim_cons']
    cases i with
    | zero =>
      simp only [List.getElem?_cons_zero, Option.some.injEq] at h
      subst h
      rw [pos_zero]
      have := row_lt hu hk
      omega
    | succ i =>
      rw [pos_succ]
      have := ih (i := i) (by simpa using h)
      omega

theorem row_inj {d u u' k k' : ℕ} (hk : k < d) (hk' : k' < d) (h : u * d + k = u' * d + k') : u = u' ∧ k = k' := by
  have hd : 0 < d := by omega
  have h1 : (k + d * u) / d = (k' + d * u') / d := by congr 1; linarith [Nat.mul_comm d u, Nat.mul_comm d u']
  rw [Nat.add_mul_div_left _ _ hd, Nat.add_mul_div_left _ _ hd, Nat.div_eq_of_lt hk, Nat.div_eq_of_lt hk'] at h1
  have : u = u' := by omega
  subst this
  exact ⟨rfl, by omega⟩

theorem pos_inj {ms : Irreps} {i i' u u' k k' : ℕ} {m m' : MulIrrep} (h : ms[i]? = some m) (h' : ms[i']? = some m')
    (hu : u < m.mul) (hk : k < 2 * m.ir.l + 1) (hu' : u' < m'.mul) (hk' : k' < 2 * m'.ir.l + 1)
    (e : pos ms i m.ir.l u k = pos ms i' m'.ir.l u' k') : i = i' ∧ u = u' ∧ k = k' := by
  induction ms generalizing i i' with
  | nil => simp at h
  | cons a ms ih =>
    cases i with
    | zero =>
      simp only [List.getElem?_cons_zero, Option.some.injEq] at h
      subst h
      cases i' with
      | zero =>
        simp only [List.getElem?_cons_zero, Option.some.injEq] at h'
        subst h'
        rw [pos_zero, pos_zero] at e
        exact ⟨rfl, row_inj hk hk' e⟩
      | succ i' =>
        rw [pos_zero, pos_succ] at e
        have := row_lt hu hk
        omega
    | succ i =>
      cases i' with
      | zero =>
        simp only [List.getElem?_cons_zero, Option.some.injEq] at h'
        subst h'
        rw [pos_zero, pos_succ] at e
        have := row_lt hu' hk'
        omega
      | succ i' =>
        rw [pos_succ, pos_succ] at e
        obtain ⟨h1, h2⟩ := ih (i := i) (i' := i') (by simpa using h) (by simpa using h') (by omega)
        exact ⟨by omega, h2⟩

theorem sum_rows {M : Type} [AddCommMonoid M] (n d : ℕ) (F : ℕ → M) :
    ∑ j ∈ Finset.range (n * d), F j = ∑ u ∈ Finset.range n, ∑ k ∈ Finset.range d, F (u * d + k) := by
  induction n with
  | zero => simp
  | succ n ih => rw [Nat.succ_mul, Finset.sum_range_add, ih, Finset.sum_range_succ]

/-- A sum over the components is a sum over terms, copies and components. -/
theorem sum_pos {M : Type} [AddCommMonoid M] (ms : Irreps) (F : ℕ → M) :
    ∑ j ∈ Finset.range (Irreps.dim ms), F j =
      ∑ i : Fin ms.length, ∑ u ∈ Finset.range (ms.get i).mul, ∑ k ∈ Finset.range (2 * (ms.get i).ir.l + 1), F (pos ms i (ms.get i).ir.l u k) := by
  induction ms generalizing F with
  | nil => simp [Irreps.dim]
  | cons m ms ih =>
    rw [dim_cons', Finset.sum_range_add, sum_rows, ih]
    refine Eq.trans ?_ (Fin.sum_univ_succ (n := ms.length) _).symm
    congr 1
    · refine Finset.sum_congr rfl fun u _ => Finset.sum_congr rfl fun k _ => ?_
      exact congrArg F (pos_zero m ms m.ir.l u k).symm
    · refine Finset.sum_congr rfl fun i _ => Finset.sum_congr rfl fun u _ => Finset.sum_congr rfl fun k _ => ?_
      exact congrArg F (pos_succ m ms i _ u k).symm

/-- Every position is one of a term, a copy and a component. -/
theorem exists_pos {ms : Irreps} {j : ℕ} (h : j < Irreps.dim ms) :
    ∃ i m u k, ms[i]? = some m ∧ u < m.mul ∧ k < 2 * m.ir.l + 1 ∧ j = pos ms i m.ir.l u k := by
  induction ms generalizing j with
  | nil => simp [Irreps.dim] at h
  | cons m ms ih =>
    rw [dim_cons'] at h
    by_cases hj : j < m.mul * (2 * m.ir.l + 1)
    · refine ⟨0, m, j / (2 * m.ir.l + 1), j % (2 * m.ir.l + 1), rfl, Nat.div_lt_of_lt_mul (by rw [mul_comm]; exact hj), Nat.mod_lt _ (by omega), ?_⟩
      rw [pos_zero, mul_comm]
      exact (Nat.div_add_mod j _).symm
    · obtain ⟨i, m', u, k, h1, h2, h3, h4⟩ := ih (j := j - m.mul * (2 * m.ir.l + 1)) (by omega)
      exact ⟨i + 1, m', u, k, by simpa using h1, h2, h3, by rw [pos_succ, ← h4]; omega⟩

/-- The entries of an array are those of its chunks. -/
theorem array_pos {x : IArr ℝ} (hx : Inv x) {i : ℕ} {m : MulIrrep} (h : x.irreps[i]? = some m) {u k : ℕ} (hu : u < m.mul) (hk : k < 2 * m.ir.l + 1) :
    ∃ c, (x.irreps.zip x.chunks)[i]? = some (m, c) ∧ shapeOk m c = true ∧
      x.array.getD (pos x.irreps i m.ir.l u k) 0 = (flatChunk m c).getD (u * (2 * m.ir.l + 1) + k) 0 := by
  have hp := hx.pairs
  have hl : i < (x.irreps.zip x.chunks).length := by
    have := congrArg List.length hp.2.1
    rw [List.length_map] at this
    rw [this]
    exact (List.getElem?_eq_some_iff.mp h).1
  obtain ⟨⟨m', c⟩, hmc⟩ : ∃ q, (x.irreps.zip x.chunks)[i]? = some q := ⟨_, List.getElem?_eq_getElem hl⟩
  have e := (List.getElem?_zip_eq_some.mp hmc).1
  rw [h] at e
  simp only [Option.some.injEq] at e
  subst e
  have hsl := FLin.slice_flat _ hp.1 i hmc
  refine ⟨c, hmc, hp.1 _ (List.mem_of_getElem? hmc), ?_⟩
  rw [hp.2.1, hp.2.2.2.2.2] at hsl
  rw [← hsl]
  show _ = (((x.array.drop _).take _).getD _ 0)
  simp only [List.getD, List.getElem?_take, List.getElem?_drop, pos]
  rw [if_pos (by show _ < m.mul * _; exact row_lt hu hk)]

end E3nn

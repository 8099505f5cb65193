import Verif.Model.RadiusGraph
import Mathlib.Data.List.Nodup
import Mathlib.Data.List.Sort
import Mathlib.Data.Fintype.Basic
import Mathlib.Tactic.FinCases
import Mathlib.Data.Fin.VecNotation
import Mathlib.Tactic.Linarith
import Mathlib.Tactic.NormNum
import Mathlib.Data.Matrix.Mul

/-!
# C43: `radius_graph`
-/

namespace E3nn.Radius

/-- Euclidean distance, for the statements. -/
noncomputable def euclid (x y : Fin 3 → ℝ) : ℝ := Real.sqrt ((x 0 - y 0) ^ 2 + (x 1 - y 1) ^ 2 + (x 2 - y 2) ^ 2)

theorem dist_eq (x y : Pt) : dist x y = euclid x y := by
  unfold dist euclid
  rw [Fin.sum_univ_three]

/-- There is an edge from `i` to `j`. -/
def Edge (loop : Bool) (rMax : ℝ) (pos : List (Fin 3 → ℝ)) (i j : Int) : Prop :=
  ∃ (a b : Nat) (x y : Fin 3 → ℝ), i = a ∧ j = b ∧ pos[a]? = some x ∧ pos[b]? = some y ∧ euclid x y < rMax ∧ (loop = true ∨ 0 < euclid x y)

theorem mask_iff (loop : Bool) (rMax : ℝ) (x y : Pt) : mask loop rMax x y = true ↔ euclid x y < rMax ∧ (loop = true ∨ 0 < euclid x y) := by
  unfold mask
  rw [dist_eq]
  cases loop <;> simp

theorem mem_zipIdx' {β : Type} (l : List β) (a : β × Nat) : a ∈ l.zipIdx ↔ l[a.2]? = some a.1 := by
  obtain ⟨x, i⟩ := a
  exact List.mk_mem_zipIdx_iff_getElem?

theorem mem_nonzero (loop : Bool) (rMax : ℝ) (pos : List Pt) (p : Int × Int) : p ∈ nonzero loop rMax pos ↔ Edge loop rMax pos p.1 p.2 := by
  unfold nonzero Edge
  simp only [List.mem_flatMap, List.mem_map, List.mem_filter, mem_zipIdx', mask_iff]
  constructor
  · rintro ⟨⟨x, a⟩, h1, ⟨y, b⟩, ⟨h2, h3⟩, rfl⟩
    exact ⟨a, b, x, y, rfl, rfl, h1, h2, h3⟩
  · rintro ⟨a, b, x, y, e1, e2, h1, h2, h3⟩
    exact ⟨(x, a), h1, (y, b), ⟨h2, h3⟩, by rw [← e1, ← e2]⟩

/-- Lexicographic order on pairs. -/
def Lex (p q : Int × Int) : Prop := p.1 < q.1 ∨ p.1 = q.1 ∧ p.2 < q.2

theorem zipIdx_sorted {β : Type} (l : List β) (k : Nat) : (l.zipIdx k).Pairwise fun a b => a.2 < b.2 := by
  induction l generalizing k with
  | nil => simp
  | cons a l ih =>
    rw [List.zipIdx_cons, List.pairwise_cons]
    refine ⟨?_, ih _⟩
    rintro ⟨b, j⟩ hb
    have := List.le_snd_of_mem_zipIdx hb
    simp only
    omega

theorem nonzero_sorted (loop : Bool) (rMax : ℝ) (pos : List Pt) : (nonzero loop rMax pos).Pairwise Lex := by
  unfold nonzero
  rw [List.pairwise_flatMap]
  constructor
  · intro a _
    rw [List.pairwise_map]
    refine ((zipIdx_sorted pos 0).filter _).imp fun {x y} h => Or.inr ⟨rfl, by simpa using h⟩
  · refine (zipIdx_sorted pos 0).imp fun {a b} h x hx y hy => ?_
    obtain ⟨c, -, rfl⟩ := List.mem_map.mp hx
    obtain ⟨d, -, rfl⟩ := List.mem_map.mp hy
    exact Or.inl (by simpa using h)

/-- **C43 (edges).** Without `size` and `batch` the result is the list of all pairs of nodes at
distance below `r_max` (for `loop=False`: and at positive distance), each once, in lexicographic
order. -/
theorem C43_edges (pos : List (Fin 3 → ℝ)) (rMax : ℝ) (loop : Bool) :
    (∀ p, p ∈ radiusGraph pos rMax none none loop (-1) (-1) ↔ Edge loop rMax pos p.1 p.2) ∧
    (radiusGraph pos rMax none none loop (-1) (-1)).Pairwise Lex ∧ (radiusGraph pos rMax none none loop (-1) (-1)).Nodup := by
  have e : radiusGraph pos rMax none none loop (-1) (-1) = nonzero loop rMax pos := by
    unfold radiusGraph whereSize
    simp [refill]
  rw [e]
  refine ⟨fun p => mem_nonzero loop rMax pos p, nonzero_sorted loop rMax pos, ?_⟩
  refine (nonzero_sorted loop rMax pos).imp fun {a b} h e => ?_
  subst e
  rcases h with h | h <;> omega

/-- **C43 (size).** With `size=n` exactly `n` pairs are returned: the first `n` edges, then the fill
values. -/
theorem C43_size (pos : List (Fin 3 → ℝ)) (rMax : ℝ) (n : Nat) (loop : Bool) (f g : Int) :
    ∃ edges, edges = radiusGraph pos rMax none none loop (-1) (-1) ∧
      radiusGraph pos rMax none (some n) loop f g = edges.take n ++ List.replicate (n - edges.length) (f, g) ∧
      (radiusGraph pos rMax none (some n) loop f g).length = n := by
  have e : radiusGraph pos rMax none none loop (-1) (-1) = nonzero loop rMax pos := by
    unfold radiusGraph whereSize
    simp [refill]
  have key : radiusGraph pos rMax none (some n) loop f g =
      (nonzero loop rMax pos).take n ++ List.replicate (n - (nonzero loop rMax pos).length) (f, g) := by
    unfold radiusGraph whereSize
    simp only [List.map_append, List.map_replicate]
    congr 1
    · conv_rhs => rw [← List.map_id ((nonzero loop rMax pos).take n)]
      apply List.map_congr_left
      intro p hp
      obtain ⟨a, b, x, y, h1, h2, -⟩ := (mem_nonzero loop rMax pos p).mp (List.mem_of_mem_take hp)
      have : p.1 ≠ -1 := by rw [h1]; omega
      have : p.2 ≠ -1 := by rw [h2]; omega
      simp [refill, *]
      exact Prod.ext h1.symm h2.symm
    · congr 2
      · unfold refill; split <;> simp_all
      · unfold refill; split <;> simp_all
  refine ⟨_, rfl, by rw [key, e], ?_⟩
  rw [key, List.length_append, List.length_take, List.length_replicate]
  omega

/-- **C43 (symmetry).** -/
theorem C43_symmetric (pos : List (Fin 3 → ℝ)) (rMax : ℝ) (loop : Bool) (i j : Int) :
    (i, j) ∈ radiusGraph pos rMax none none loop (-1) (-1) ↔ (j, i) ∈ radiusGraph pos rMax none none loop (-1) (-1) := by
  have hs : ∀ x y, euclid x y = euclid y x := by intro x y; unfold euclid; congr 1; ring
  have : ∀ i j, Edge loop rMax pos i j → Edge loop rMax pos j i := by
    rintro i j ⟨a, b, x, y, h1, h2, h3, h4, h5⟩
    exact ⟨b, a, y, x, h2, h1, h4, h3, by rwa [hs y x]⟩
  rw [(C43_edges pos rMax loop).1, (C43_edges pos rMax loop).1]
  exact ⟨this i j, this j i⟩

/-- **C43 (loops).** With `loop=False` no node is connected to itself; with `loop=True` (and a
positive cutoff) every node is. -/
theorem C43_loops (pos : List (Fin 3 → ℝ)) (rMax : ℝ) (hr : 0 < rMax) (i : Nat) :
    ((i : Int), (i : Int)) ∉ radiusGraph pos rMax none none false (-1) (-1) ∧
    (i < pos.length → ((i : Int), (i : Int)) ∈ radiusGraph pos rMax none none true (-1) (-1)) := by
  have h0 : ∀ x, euclid x x = 0 := by intro x; simp [euclid]
  rw [(C43_edges pos rMax false).1, (C43_edges pos rMax true).1]
  constructor
  · rintro ⟨a, b, x, y, h1, h2, h3, h4, -, h5⟩
    have ha : a = i := by simp only at h1; omega
    have hb : b = i := by simp only at h2; omega
    subst ha hb
    rw [h3] at h4; injection h4 with h4; subst h4
    rw [h0] at h5
    simp at h5
  · intro hi
    exact ⟨i, i, pos[i], pos[i], rfl, rfl, List.getElem?_eq_getElem hi, List.getElem?_eq_getElem hi, by rw [h0]; exact hr, Or.inl rfl⟩

/-- The converse for `loop=False` is false of the code: two different nodes at the same place are
not connected (`r > 0` is used instead of `i != j`). -/
theorem C43_coincident_witness : radiusGraph [0, 0] 1 none none false (-1) (-1) = [] := by
  rw [List.eq_nil_iff_forall_not_mem]
  rintro ⟨i, j⟩ h
  obtain ⟨a, b, x, y, -, -, h1, h2, -, h3⟩ := ((C43_edges [0, 0] 1 false).1 _).mp h
  have hx : x = 0 := by
    have := List.mem_of_getElem? h1
    simpa using this
  have hy : y = 0 := by
    have := List.mem_of_getElem? h2
    simpa using this
  rcases h3 with h3 | h3
  · simp at h3
  · rw [hx, hy] at h3
    simp [euclid] at h3

/-- **C43 (invariance).** The graph does not change under rotations, reflections and translations. -/
theorem C43_invariant (R : Matrix (Fin 3) (Fin 3) ℝ) (hR : R.transpose * R = 1) (t : Fin 3 → ℝ) (pos : List (Fin 3 → ℝ)) (rMax : ℝ)
    (batch : Option (List Int)) (size : Option Nat) (loop : Bool) (f g : Int) :
    radiusGraph (pos.map fun x => R.mulVec x + t) rMax batch size loop f g = radiusGraph pos rMax batch size loop f g := by
  have hd : ∀ x y : Pt, dist (R.mulVec x + t) (R.mulVec y + t) = dist x y := by
    intro x y
    have key : ∀ v : Pt, ∑ i, (R.mulVec v i) ^ 2 = ∑ i, (v i) ^ 2 := by
      intro v
      have h1 : dotProduct (R.mulVec v) (R.mulVec v) = dotProduct v v := by
        rw [Matrix.dotProduct_mulVec, Matrix.vecMul_mulVec, hR, Matrix.vecMul_one]
      simpa [dotProduct, pow_two] using h1
    unfold dist
    have e : ∀ i, (R.mulVec x + t) i - (R.mulVec y + t) i = R.mulVec (x - y) i := by
      intro i; rw [Matrix.mulVec_sub]; simp
    simp only [e]
    rw [key]
    rfl
  have hm : ∀ x y : Pt, mask loop rMax (R.mulVec x + t) (R.mulVec y + t) = mask loop rMax x y := by
    intro x y; unfold mask; rw [hd]
  have hn : nonzero loop rMax (pos.map fun x => R.mulVec x + t) = nonzero loop rMax pos := by
    unfold nonzero
    rw [List.zipIdx_map, List.flatMap_map]
    apply List.flatMap_congr
    intro a _
    rw [List.filter_map, List.map_map]
    congr 1
    apply List.filter_congr
    intro b _
    exact hm a.1 b.1
  unfold radiusGraph
  rw [hn]

/-- **C43 (batch).** With `batch` exactly the edges between nodes of the same batch are kept. -/
theorem C43_batch (pos : List (Fin 3 → ℝ)) (rMax : ℝ) (b : List Int) (hb : b.length = pos.length) (loop : Bool) (p : Int × Int) :
    p ∈ radiusGraph pos rMax (some b) none loop (-1) (-1) ↔
      Edge loop rMax pos p.1 p.2 ∧ ∃ i j : Nat, p = ((i : Int), (j : Int)) ∧ b[i]? = b[j]? := by
  have e : radiusGraph pos rMax (some b) none loop (-1) (-1) =
      (radiusGraph pos rMax none none loop (-1) (-1)).filter fun p => decide (gather b p.1 = gather b p.2) := rfl
  rw [e, List.mem_filter, (C43_edges pos rMax loop).1, decide_eq_true_eq]
  have hg : ∀ i : Nat, i < b.length → gather b i = b.getD i 0 := by
    intro i hi
    unfold gather
    rw [if_neg (by omega)]
    have : min ((i : Int)).toNat (b.length - 1) = i := by simp; omega
    show b.getD (min ((i : Int)).toNat (b.length - 1)) 0 = _
    rw [this]
  constructor
  · rintro ⟨h, hb'⟩
    refine ⟨h, ?_⟩
    obtain ⟨i, j, x, y, h1, h2, h3, h4, -⟩ := h
    have hi : i < b.length := by rw [hb]; exact (List.getElem?_eq_some_iff.mp h3).1
    have hj : j < b.length := by rw [hb]; exact (List.getElem?_eq_some_iff.mp h4).1
    refine ⟨i, j, by rw [← h1, ← h2], ?_⟩
    rw [h1, h2, hg i hi, hg j hj] at hb'
    simpa [List.getD, hi, hj] using hb'
  · rintro ⟨h, i, j, e, hij⟩
    refine ⟨h, ?_⟩
    obtain ⟨a, c, x, y, h1, h2, h3, h4, -⟩ := h
    rw [e] at h1 h2
    have hai : a = i := by simp only at h1; omega
    have hcj : c = j := by simp only at h2; omega
    subst hai hcj
    have hi : a < b.length := by rw [hb]; exact (List.getElem?_eq_some_iff.mp h3).1
    have hj : c < b.length := by rw [hb]; exact (List.getElem?_eq_some_iff.mp h4).1
    rw [e, hg a hi, hg c hj]
    simp [List.getD, hij]

/-- With `size` and `batch` the padding `(-1, -1)` passes the batch test (`-1` is read as the last
node), so padded entries remain. -/
theorem C43_batch_padding (rMax : ℝ) (b : List Int) (n : Nat) (loop : Bool) :
    radiusGraph [] rMax (some b) (some n) loop (-1) (-1) = List.replicate n (-1, -1) := by
  unfold radiusGraph whereSize nonzero
  simp [refill]

/-- A concrete graph: three points on a line, cutoff 3/2. -/
theorem C43_concrete : Edge false (3 / 2) [0, ![1, 0, 0], ![2, 0, 0]] 0 1 ∧ ¬ Edge false (3 / 2) [0, ![1, 0, 0], ![2, 0, 0]] 0 2 := by
  constructor
  · refine ⟨0, 1, 0, ![1, 0, 0], rfl, rfl, rfl, rfl, ?_, Or.inr ?_⟩ <;> simp [euclid] <;> norm_num
  · rintro ⟨a, b, x, y, h1, h2, h3, h4, h5, -⟩
    have ha : a = 0 := by omega
    have hb : b = 2 := by omega
    subst ha hb
    simp only [List.getElem?_cons_zero, List.getElem?_cons_succ, Option.some.injEq] at h3 h4
    subst h3 h4
    have : euclid 0 ![2, 0, 0] = 2 := by
      unfold euclid
      have : ((0 : Fin 3 → ℝ) 0 - (![2, 0, 0] : Fin 3 → ℝ) 0) ^ 2 + ((0 : Fin 3 → ℝ) 1 - (![2, 0, 0] : Fin 3 → ℝ) 1) ^ 2 +
          ((0 : Fin 3 → ℝ) 2 - (![2, 0, 0] : Fin 3 → ℝ) 2) ^ 2 = 2 ^ 2 := by simp
      rw [this, Real.sqrt_sq (by norm_num)]
    rw [this] at h5
    norm_num at h5

end E3nn.Radius

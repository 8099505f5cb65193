import Verif.Model.Sort
import Verif.Lemmas.Irreps
import Verif.Lemmas.Perm
import Verif.Props.C01_C02

/-! # Helper lemmas on `Irreps.sort` and `Irreps.regroup` -/

namespace E3nn

/-- Position of an irrep in the enumeration of irreps. -/
def Irrep.enc (a : Irrep) : Nat := 2 * a.l + (if a.p = Parity.ofPow a.l then 0 else 1)

theorem Irrep.lt_iff_enc (a b : Irrep) : a.lt b = true ↔ a.enc < b.enc := by
  rw [C01_lt_iff_before]
  unfold Irrep.Before Irrep.enc
  by_cases h1 : a.p = Parity.ofPow a.l <;> by_cases h2 : b.p = Parity.ofPow b.l <;>
    simp [h1, h2] <;> omega

theorem Irrep.enc_inj {a b : Irrep} (h : a.enc = b.enc) : a = b := by
  rcases C01_lt_strict_total_order.2.2 a b with h' | h' | h'
  · rw [Irrep.lt_iff_enc] at h'; omega
  · exact h'
  · rw [Irrep.lt_iff_enc] at h'; omega

theorem Irrep.lt_false_iff_enc (a b : Irrep) : a.lt b = false ↔ b.enc ≤ a.enc := by
  rw [← Bool.not_eq_true, Irrep.lt_iff_enc]; omega

namespace Irreps

theorem sortLt_iff (a b : Irrep × Nat × Nat) : sortLt a b = true ↔
    a.1.enc < b.1.enc ∨ (a.1.enc = b.1.enc ∧ (a.2.1 < b.2.1 ∨ (a.2.1 = b.2.1 ∧ a.2.2 < b.2.2))) := by
  unfold sortLt
  by_cases h1 : a.1 = b.1
  · simp only [h1, ne_eq, not_true_eq_false, if_false, Nat.lt_irrefl, true_and, false_or]
    by_cases h2 : a.2.1 = b.2.1
    · simp [h2]
    · simp [h2]
  · have : a.1.enc ≠ b.1.enc := fun h => h1 (Irrep.enc_inj h)
    simp only [ne_eq, h1, not_false_eq_true, if_true, Irrep.lt_iff_enc]
    omega

theorem sortLt_false_iff (a b : Irrep × Nat × Nat) : sortLt a b = false ↔
    ¬ (a.1.enc < b.1.enc ∨ (a.1.enc = b.1.enc ∧ (a.2.1 < b.2.1 ∨ (a.2.1 = b.2.1 ∧ a.2.2 < b.2.2)))) := by
  rw [← sortLt_iff]; simp

/-- The list given to `sorted`. -/
def triples (x : Irreps) : List (Irrep × Nat × Nat) := x.zipIdx.map fun (m, i) => (m.ir, i, m.mul)

theorem sortedTriples_perm (x : Irreps) : x.sortedTriples.Perm (triples x) := pySorted_perm _ _

theorem sortedTriples_sorted (x : Irreps) :
    x.sortedTriples.Pairwise fun a b => sortLt b a = false := by
  apply pySorted_pairwise
  · intro a b h
    rw [sortLt_iff] at h
    rw [sortLt_false_iff]
    omega
  · intro a b c h1 h2
    rw [sortLt_false_iff] at *
    omega

theorem triples_idx (x : Irreps) : (triples x).map (fun t => t.2.1) = List.range x.length := by
  unfold triples
  rw [List.map_map]
  have : ((fun t : Irrep × Nat × Nat => t.2.1) ∘ fun (m, i) => (m.ir, i, m.mul)) =
      (Prod.snd : MulIrrep × Nat → Nat) := by
    funext ⟨m, i⟩; rfl
  rw [this, List.zipIdx_map_snd, List.range_eq_range']

theorem triples_get {x : Irreps} {t : Irrep × Nat × Nat} (h : t ∈ triples x) :
    x[t.2.1]? = some ⟨t.2.2, t.1⟩ := by
  unfold triples at h
  rw [List.mem_map] at h
  obtain ⟨⟨m, i⟩, h1, rfl⟩ := h
  simpa using List.mem_zipIdx_iff_getElem?.mp h1

theorem triples_irreps (x : Irreps) :
    (triples x).map (fun t => (⟨t.2.2, t.1⟩ : MulIrrep)) = x := by
  unfold triples
  rw [List.map_map]
  have : ((fun t : Irrep × Nat × Nat => (⟨t.2.2, t.1⟩ : MulIrrep)) ∘ fun (m, i) => (m.ir, i, m.mul)) =
      (Prod.fst : MulIrrep × Nat → MulIrrep) := by
    funext ⟨m, i⟩; rfl
  rw [this, List.zipIdx_map_fst]

/-- The `inv` tuple of `sort`. -/
def sortInv (x : Irreps) : List Nat := x.sortedTriples.map fun t => t.2.1

/-- The irreps of `sort`. -/
def sortIrreps (x : Irreps) : Irreps := x.sortedTriples.map fun t => ⟨t.2.2, t.1⟩

theorem sortInv_perm (x : Irreps) : (sortInv x).Perm (List.range x.length) := by
  rw [← triples_idx]
  exact (sortedTriples_perm x).map _

theorem sortIrreps_perm (x : Irreps) : (sortIrreps x).Perm x := by
  have := (sortedTriples_perm x).map (fun t => (⟨t.2.2, t.1⟩ : MulIrrep))
  rwa [triples_irreps] at this

theorem sort_eq (x : Irreps) :
    x.sort = .ok ⟨sortIrreps x, Perm.inv (sortInv x), sortInv x⟩ := by
  unfold sort
  have h : Perm.inverse (x.sortedTriples.map fun t => t.2.1) = .ok (Perm.inv (sortInv x)) :=
    Perm.inverse_eq (sortInv_perm x)
  simp only [h]
  rfl

theorem regroup_eq (x : Irreps) : x.regroup = .ok (simplify (sortIrreps x)) := by
  unfold regroup
  rw [sort_eq]
  rfl

theorem sortIrreps_get (x : Irreps) (k : Nat) (hk : k < x.length) :
    ∃ i, (sortInv x)[k]? = some i ∧ (sortIrreps x)[k]? = x[i]? := by
  have hl : k < x.sortedTriples.length := by
    rw [(sortedTriples_perm x).length_eq]; unfold triples; simpa using hk
  have hm := (sortedTriples_perm x).mem_iff.mp (List.getElem_mem hl)
  have hg := triples_get hm
  refine ⟨(x.sortedTriples[k]).2.1, ?_, ?_⟩
  · simp [sortInv, hl]
  · rw [hg]
    simp [sortIrreps, hl]

theorem sortIrreps_sorted (x : Irreps) :
    (sortIrreps x).Pairwise fun a b => b.ir.lt a.ir = false := by
  unfold sortIrreps
  rw [List.pairwise_map]
  refine (sortedTriples_sorted x).imp ?_
  intro a b h
  rw [sortLt_false_iff] at h
  rw [Irrep.lt_false_iff_enc]
  dsimp only
  omega

theorem expand_perm {x y : Irreps} (h : x.Perm y) : (expand x).Perm (expand y) :=
  h.flatMap_right _

theorem count_sortIrreps (x : Irreps) (ir : Irrep) : count (sortIrreps x) ir = count x ir := by
  rw [count_eq_count_expand, count_eq_count_expand]
  exact (expand_perm (sortIrreps_perm x)).count_eq ir

theorem unifyLoop_sublist (out x : Irreps) :
    ((unifyLoop out x).map MulIrrep.ir).Sublist ((out.reverse ++ x).map MulIrrep.ir) := by
  induction x generalizing out with
  | nil => cases out <;> simp [unifyLoop]
  | cons m x ih =>
    cases out with
    | nil => simpa [unifyLoop] using ih [m]
    | cons b out =>
      unfold unifyLoop
      split
      · next h =>
        refine (ih _).trans ?_
        simp only [List.reverse_cons, List.append_assoc, List.map_append, List.map_cons,
          List.cons_append, List.nil_append, h]
        apply List.Sublist.append (List.Sublist.refl _)
        exact List.Sublist.cons _ (List.Sublist.refl _)
      · have := ih (m :: b :: out)
        simpa using this

theorem simplify_sublist (x : Irreps) :
    ((simplify x).map MulIrrep.ir).Sublist (x.map MulIrrep.ir) := by
  unfold simplify unify
  refine (unifyLoop_sublist [] _).trans ?_
  simp only [List.reverse_nil, List.nil_append]
  exact (List.filter_sublist).map _

theorem simplify_sorted {x : Irreps} (h : x.Pairwise fun a b => b.ir.lt a.ir = false) :
    (simplify x).Pairwise fun a b => a.ir.lt b.ir = true := by
  have h1 : (x.map MulIrrep.ir).Pairwise fun a b => b.lt a = false := by
    rw [List.pairwise_map]; exact h
  have h2 := h1.sublist (simplify_sublist x)
  rw [List.pairwise_map] at h2
  have h3 := simplify_chain x
  have h4 : (simplify x).IsChain (fun a b => a.ir.enc < b.ir.enc) := by
    have h5 := h2.isChain
    have h6 : (simplify x).IsChain (fun a b => b.ir.lt a.ir = false ∧ a.ir ≠ b.ir) := by
      clear h1 h2 h
      revert h3 h5
      generalize simplify x = y
      intro h3 h5
      induction y with
      | nil => simp
      | cons a y ih =>
        cases y with
        | nil => simp
        | cons b y =>
          rw [List.isChain_cons_cons] at *
          exact ⟨⟨h5.1, h3.1⟩, ih h3.2 h5.2⟩
    refine h6.imp ?_
    rintro a b ⟨h7, h8⟩
    rw [Irrep.lt_false_iff_enc] at h7
    have : a.ir.enc ≠ b.ir.enc := fun h => h8 (Irrep.enc_inj h)
    omega
  have h5 := (List.isChain_iff_pairwise (R := fun a b : MulIrrep => a.ir.enc < b.ir.enc)).mp h4
  exact h5.imp (fun h => (Irrep.lt_iff_enc _ _).mpr h)

theorem expand_sorted {x : Irreps} (h : x.Pairwise fun a b => a.ir.lt b.ir = true) :
    (expand x).Pairwise fun a b => a.enc ≤ b.enc := by
  induction x with
  | nil => simp
  | cons m x ih =>
    rw [List.pairwise_cons] at h
    rw [expand_cons, List.pairwise_append]
    refine ⟨?_, ih h.2, ?_⟩
    · rw [List.pairwise_replicate]; right; exact Nat.le_refl _
    · intro a ha b hb
      rw [List.mem_replicate] at ha
      unfold expand at hb
      rw [List.mem_flatMap] at hb
      obtain ⟨n, hn, hb⟩ := hb
      rw [List.mem_replicate] at hb
      have := h.1 n hn
      rw [Irrep.lt_iff_enc] at this
      rw [ha.2, hb.2]
      omega

/-- Strictly increasing irreps with positive multiplicities are determined by the counts. -/
theorem eq_of_count {x y : Irreps} (hx : x.Pairwise fun a b => a.ir.lt b.ir = true)
    (hy : y.Pairwise fun a b => a.ir.lt b.ir = true)
    (px : ∀ m ∈ x, 0 < m.mul) (py : ∀ m ∈ y, 0 < m.mul)
    (h : ∀ ir, count x ir = count y ir) : x = y := by
  have hperm : (expand x).Perm (expand y) := by
    rw [List.perm_iff_count]
    intro ir
    rw [← count_eq_count_expand, ← count_eq_count_expand, h]
  have he : expand x = expand y := by
    apply List.Perm.eq_of_pairwise (le := fun a b : Irrep => a.enc ≤ b.enc) _ (expand_sorted hx)
      (expand_sorted hy) hperm
    intro a b _ _ h1 h2
    exact Irrep.enc_inj (by omega)
  have hne : ∀ {z : Irreps}, z.Pairwise (fun a b => a.ir.lt b.ir = true) →
      z.IsChain (fun a b => a.ir ≠ b.ir) := by
    intro z hz
    refine hz.isChain.imp ?_
    intro a b hab heq
    rw [heq, C01_lt_strict_total_order.1] at hab
    simp at hab
  exact expand_injective_of_chain x y (hne hx) (hne hy) px py he

end Irreps
end E3nn

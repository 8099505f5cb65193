import Verif.Lemmas.RTPOptEmbed
import Verif.Lemmas.RTPFlat

/-! # Rotations and sums of placed arrays -/

namespace E3nn.RTP

open Finset E3nn.PermRepr E3nn.Wig E3nn.SU2

theorem onAxes_emb {S : Irreps} {c a F : List ℕ} (ha : a.Nodup) {D dk : ℕ → ℕ} {Mx Mk : ℕ → ℕ → ℕ → ℝ} :
    ∀ (f : List ℕ), (∀ m ∈ f, m < a.length ∧ m ∈ F) → (∀ m ∈ f, D m = S.dim) →
    (∀ m ∈ f, dk (a.getD m 0) = startOf S (c.getD (a.getD m 0) 0 + 1) - startOf S (c.getD (a.getD m 0) 0)) →
    (∀ m ∈ f, ∀ x j, InB S (c.getD (a.getD m 0) 0) j → Mx m x j = if startOf S (c.getD (a.getD m 0) 0) ≤ x ∧ x < startOf S (c.getD (a.getD m 0) 0 + 1) then
      Mk (a.getD m 0) (x - startOf S (c.getD (a.getD m 0) 0)) (j - startOf S (c.getD (a.getD m 0) 0)) else 0) → ∀ t : Ten,
    onAxes D Mx f (emb S c a F t) = emb S c a F (onAxes dk Mk (f.map fun m => a.getD m 0) t)
  | [], _, _, _, _, _ => rfl
  | m :: f, h1, h2, h3, h4, t => by
    have ih := onAxes_emb ha f (fun m hm => h1 m (by simp [hm])) (fun m hm => h2 m (by simp [hm])) (fun m hm => h3 m (by simp [hm])) (fun m hm => h4 m (by simp [hm])) t
    obtain ⟨hm, hF⟩ := h1 m (by simp)
    have ham : a.getD m 0 = a[m] := List.getD_eq_getElem _ _ hm
    show onAxis (D m) (Mx m) m (onAxes D Mx f (emb S c a F t)) = emb S c a F (onAxis (dk (a.getD m 0)) (Mk (a.getD m 0)) (a.getD m 0) (onAxes dk Mk (f.map fun m => a.getD m 0) t))
    have h3' := h3 m (by simp)
    have h4' := h4 m (by simp)
    rw [ham] at h3' h4' ⊢
    rw [ih, h2 m (by simp), onAxis_emb ha hm hF (Mx m) (Mk a[m]) h4', h3']

theorem axSum_emb {S : Irreps} {c a : List ℕ} (ha : a.Nodup) {D dk : ℕ → ℕ} :
    ∀ (f F : List ℕ), (f ++ F).Nodup → (∀ m ∈ f, m < a.length) → (∀ m ∈ f, D m = S.dim) →
    (∀ m ∈ f, dk (a.getD m 0) = startOf S (c.getD (a.getD m 0) 0 + 1) - startOf S (c.getD (a.getD m 0) 0)) → ∀ u : Ten,
    axSum D f (emb S c a (f ++ F) u) = emb S c a F (axSum dk (f.map fun m => a.getD m 0) u)
  | [], _, _, _, _, _, _ => rfl
  | m :: f, F, hn, h1, h2, h3, u => by
    have hm := h1 m (by simp)
    have ham : a.getD m 0 = a[m] := List.getD_eq_getElem _ _ hm
    have hp : (m :: f ++ F).Perm (f ++ m :: F) := by simpa using (List.perm_middle (a := m) (l₁ := f) (l₂ := F)).symm
    have ih := axSum_emb (S := S) (c := c) ha (D := D) (dk := dk) f (m :: F) (hp.nodup_iff.mp hn) (fun m hm => h1 m (by simp [hm])) (fun m hm => h2 m (by simp [hm])) (fun m hm => h3 m (by simp [hm])) u
    have hF : m ∉ F := by
      intro h
      simp only [List.cons_append, List.nodup_cons, List.mem_append] at hn
      exact hn.1 (Or.inr h)
    have h3' := h3 m (by simp)
    rw [ham] at h3'
    funext σ
    rw [axSum_cons, h2 m (by simp), emb_congr S c a (fun k => hp.mem_iff) u, ih, sum_emb ha hm hF]
    congr 1
    funext τ
    rw [List.map_cons, axSum_cons, ham, h3']

/-- The sum over all axes. -/
theorem axSum_embed {S : Irreps} {c a : List ℕ} {n : ℕ} (ha : a.Perm (List.range n)) {D dk : ℕ → ℕ} (hD : ∀ m < n, D m = S.dim)
    (hd : ∀ k < n, dk k = startOf S (c.getD k 0 + 1) - startOf S (c.getD k 0)) {u : Ten} (hu : On (List.range n) u) (σ τ : ℕ → ℕ) :
    axSum D (List.range n) (embed S c a u) σ = axSum dk (List.range n) u τ := by
  have hnd : a.Nodup := ha.nodup_iff.mpr List.nodup_range
  have hl : a.length = n := by rw [ha.length_eq, List.length_range]
  have hlt : ∀ m < n, a.getD m 0 < n := by
    intro m hm
    rw [List.getD_eq_getElem _ _ (by omega)]
    exact List.mem_range.mp (ha.mem_iff.mp (List.getElem_mem _))
  have h := axSum_emb (S := S) (c := c) hnd (D := D) (dk := dk) (List.range n) [] (by simpa using List.nodup_range) (fun m hm => by rw [hl]; exact List.mem_range.mp hm)
    (fun m hm => hD m (List.mem_range.mp hm)) (fun m hm => hd _ (hlt m (List.mem_range.mp hm))) u
  have e : (List.range n).map (fun m => a.getD m 0) = a := by
    apply List.ext_getElem (by simp [hl])
    intro i h1 h2
    simp only [List.getElem_map, List.getElem_range]
    rw [List.getD_eq_getElem _ _ h2]
  rw [e, List.append_nil, axSum_perm dk ha] at h
  rw [embed_eq, hl, h, emb_pos (by simp)]
  exact axSum_const _ hu _ _

/-! ### the matrices of the single irreps -/

/-- The sum of the sizes of the first irreps. -/
def offs (L : List Irrep) (k : ℕ) : ℕ := ((L.take k).map fun ir => ir.dim).sum

theorem singles_eq (x : Irreps) : singles x = (expand x).map fun ir => (⟨1, ir⟩ : MulIrrep) := by
  unfold singles expand
  rw [List.map_flatMap]
  simp

theorem startOf_singles (L : List Irrep) (k : ℕ) : startOf (L.map fun ir => (⟨1, ir⟩ : MulIrrep)) k = offs L k := by
  unfold startOf offs Irreps.dim
  rw [← List.map_take, List.map_map]
  congr 1
  apply List.map_congr_left
  intro ir _
  simp [MulIrrep.dim]

theorem dim_singles (x : Irreps) : (singles x).dim = x.dim := by
  rw [singles_eq, Irreps.dim_eq_dimOf_expand x]
  unfold Irreps.dim dimOf
  rw [List.map_map]
  congr 1
  apply List.map_congr_left
  intro ir _
  simp [MulIrrep.dim, Irrep.dim]

theorem entry_blockDiag_slice (B : Irrep → List (List ℝ)) (hB : ∀ ir, (B ir).length = ir.dim ∧ ∀ r ∈ B ir, r.length = ir.dim) : ∀ (L : List Irrep) (κ : ℕ) (hκ : κ < L.length) (x j : ℕ),
    offs L κ ≤ j → j < offs L (κ + 1) →
    entry (Irreps.blockDiag (L.map B)) x j = if offs L κ ≤ x ∧ x < offs L (κ + 1) then entry (B L[κ]) (x - offs L κ) (j - offs L κ) else 0
  | [], κ, hκ, _, _, _, _ => by simp at hκ
  | ir :: L, κ, hκ, x, j, h1, h2 => by
    have hl := (hB ir).1
    rw [List.map_cons, entry_blockDiag _ _ (fun r hr => by rw [hl]; exact (hB ir).2 r hr), hl]
    cases κ with
    | zero =>
      have e0 : offs (ir :: L) 0 = 0 := rfl
      have e1 : offs (ir :: L) (0 + 1) = ir.dim := by simp [offs]
      rw [e1] at h2 ⊢
      rw [e0, if_pos h2, if_pos h2]
      by_cases hx : x < ir.dim
      · rw [if_pos hx, if_pos ⟨Nat.zero_le _, hx⟩]; rfl
      · rw [if_neg hx, if_neg (by omega)]
    | succ κ =>
      have e : ∀ k, offs (ir :: L) (k + 1) = ir.dim + offs L k := fun k => by simp [offs]
      rw [e] at h1 h2
      rw [e, e]
      have hj : ¬ j < ir.dim := by omega
      simp only [if_neg hj]
      by_cases hx : x < ir.dim
      · rw [if_pos hx, if_neg (by omega)]
      · rw [if_neg hx, entry_blockDiag_slice B hB L κ (by simpa using hκ) _ _ (by omega) (by omega)]
        by_cases hx2 : offs L κ ≤ x - ir.dim ∧ x - ir.dim < offs L (κ + 1)
        · rw [if_pos hx2, if_pos (by omega), Nat.sub_sub, Nat.sub_sub]
          rfl
        · rw [if_neg hx2, if_neg (by omega)]

theorem matRows_shape {m n : ℕ} (A : Matrix (Fin m) (Fin n) ℝ) : (matRows A).length = m ∧ ∀ r ∈ matRows A, r.length = n := by
  unfold matRows
  refine ⟨by simp, fun r hr => ?_⟩
  obtain ⟨i, rfl⟩ := (List.mem_ofFn' _ _).mp hr
  simp

theorem entry_single (ir : Irrep) (R : Matrix (Fin 3) (Fin 3) ℝ) {a b : ℕ} (ha : a < ir.dim) (hb : b < ir.dim) :
    entry (Irreps.dMatrix [⟨1, ir⟩] R) a b = entry (matRows (Wig.dMatrix ir R)) a b := by
  have hs := matRows_shape (Wig.dMatrix ir R)
  have hl : (matRows (Wig.dMatrix ir R)).length = ir.dim := hs.1
  rw [dMatrix_blockDiag]
  have e : expand [⟨1, ir⟩] = [ir] := rfl
  rw [e, List.map_singleton, entry_blockDiag _ _ (fun r hr => by rw [hl]; exact hs.2 r hr), hl, if_pos ha, if_pos hb]

theorem mats_singles (x : Irreps) (R : Matrix (Fin 3) (Fin 3) ℝ) {κ : ℕ} (hκ : κ < (singles x).length) {a b : ℕ} (hb : InB (singles x) κ b) :
    entry (x.dMatrix R) a b = if startOf (singles x) κ ≤ a ∧ a < startOf (singles x) (κ + 1) then
      entry (Irreps.dMatrix [(singles x)[κ]] R) (a - startOf (singles x) κ) (b - startOf (singles x) κ) else 0 := by
  rw [dMatrix_blockDiag]
  have hκ' : κ < (expand x).length := by rw [singles_eq] at hκ; simpa using hκ
  have hg : (singles x)[κ] = ⟨1, (expand x)[κ]⟩ := by simp only [singles_eq, List.getElem_map]
  have hst : ∀ k, startOf (singles x) k = offs (expand x) k := fun k => by rw [singles_eq, startOf_singles]
  rw [hg]
  unfold InB at hb
  simp only [hst] at hb ⊢
  rw [entry_blockDiag_slice (fun ir => matRows (Wig.dMatrix ir R)) (fun ir => matRows_shape _) (expand x) κ hκ' a b hb.1 hb.2]
  have hsz : offs (expand x) (κ + 1) = offs (expand x) κ + (expand x)[κ].dim := by
    unfold offs
    rw [← List.take_append_getElem hκ', List.map_append, List.sum_append]
    simp
  by_cases ha : offs (expand x) κ ≤ a ∧ a < offs (expand x) (κ + 1)
  · rw [if_pos ha, if_pos ha, entry_single _ _ (by omega) (by omega)]
  · rw [if_neg ha, if_neg ha]

end E3nn.RTP

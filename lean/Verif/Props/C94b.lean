import Verif.Lemmas.RTPTotal

/-!
# C94: the general algorithm terminates and returns
-/

namespace E3nn.RTP

open E3nn.IArr E3nn.LinAlg E3nn.PermRepr E3nn.Wig

/-- **C94 (totality).** At least one index, a group `G` of signed permutations that preserves the dimensions and no irreps of dimension
zero: the loop and its recursion end (after at most `(n-1)^2 + n` turns) without an exception, whatever `keep_ir`, the tolerance and the
eigenvectors that `np.linalg.eigh` returns, and the result transforms as its irreps say. -/
theorem C94_total (eigh : Eigh) (eps : ℝ) (opt : Optimized) (irr : List Irreps) (G : Finset SPerm) (keep : Option (List Irrep)) (fuel : ℕ)
    (hn : irr ≠ []) (hG : IsSGroup irr.length G) (hd : Compat G (irr.map Irreps.dim)) (h0 : ∀ x ∈ irr, x.dim ≠ 0)
    (hfuel : (irr.length - 1) ^ 2 + irr.length ≤ fuel) :
    ∃ B, basis eigh eps opt false fuel irr G keep = some (.ok B) ∧ Equivariant irr B := by
  obtain ⟨y, h, -⟩ := basis_total (eigh := eigh) (eps := eps) (opt := opt) (flag := false)
    (fun _ _ _ => True) (fun _ _ _ _ _ _ _ => trivial) (fun irr G keep _ _ hu => by simp [useOptimized] at hu) irr.length irr G keep fuel rfl ⟨hn, hG, hd, h0⟩ trivial hfuel
  exact ⟨y, h, C94_equivariant eigh eps opt fuel irr G keep y h⟩

/-- No indices: `RuntimeError`. -/
theorem C94_empty (eigh : Eigh) (eps : ℝ) (opt : Optimized) (G : Finset SPerm) (keep : Option (List Irrep)) (fuel : ℕ) :
    basis eigh eps opt false (fuel + 1) [] G keep = some (.error .runtimeError) := by
  simp [basis, start, useOptimized, initial, loop, List.mapM_nil, pure, Except.pure]

/-- The hypotheses hold for the totally antisymmetric tensors of three indices `2x0e + 1o`, a case where the loop calls itself. -/
example (eigh : Eigh) (eps : ℝ) (opt : Optimized) (keep : Option (List Irrep)) :
    ∃ B, basis eigh eps opt false 7 (List.replicate 3 [⟨2, ⟨0, .e⟩⟩, ⟨1, ⟨1, .o⟩⟩]) (antisymmetricPermRepr 3) keep = some (.ok B) ∧
      Equivariant (List.replicate 3 [⟨2, ⟨0, .e⟩⟩, ⟨1, ⟨1, .o⟩⟩]) B := by
  refine C94_total eigh eps opt _ _ keep 7 (by simp) (by simpa using antisymmetric_group (n := 3)) ?_ ?_ (by simp)
  · rw [List.map_replicate]
    exact compat_const antisymmetric_group
  · intro x hx
    rw [List.eq_of_mem_replicate hx]
    decide

end E3nn.RTP

import Verif.Lemmas.SoftQuad
import Verif.Lemmas.IArrOps
import Mathlib.Tactic.LinearCombination

/-! # `_expand_matrix` and the coefficients -/

namespace E3nn.S2

open E3nn.IArr E3nn.SH

variable {ι : Type}

/-- The size of the flattened vector. -/
def dimLs (ls : List ℕ) : ℕ := (ls.map fun l => 2 * l + 1).sum

theorem expand_foldl (lmax : ℕ) (ls : List ℕ) : (ls.foldl (expandStep lmax) (fun _ _ _ => 0, 0)).2 = dimLs ls ∧
    ∀ l m i, dimLs ls ≤ i → (ls.foldl (expandStep lmax) (fun _ _ _ => 0, 0)).1 l m i = 0 := by
  induction ls using List.reverseRecOn with
  | nil => exact ⟨rfl, fun _ _ _ _ => rfl⟩
  | append_singleton ls l ih =>
    rw [List.foldl_append]
    have hd : dimLs (ls ++ [l]) = dimLs ls + (2 * l + 1) := by simp [dimLs]
    refine ⟨?_, ?_⟩
    · simp only [List.foldl_cons, List.foldl_nil, expandStep]
      rw [ih.1, hd]
    · intro l' m i hi
      rw [hd] at hi
      simp only [List.foldl_cons, List.foldl_nil, expandStep]
      rw [ih.1, if_neg (by omega), ih.2 _ _ _ (by omega)]

/-- The window of the orders of the degree `l`. -/
def InWin (lmax l m : ℕ) : Prop := lmax - l ≤ m ∧ m < lmax + l + 1

instance (lmax l m : ℕ) : Decidable (InWin lmax l m) := inferInstanceAs (Decidable (_ ∧ _))

/-- The product of `_expand_matrix` with a vector picks the components of the blocks. -/
theorem expand_dot (lmax : ℕ) (G : List (ℕ × List (ι → ℝ))) (hG : ∀ g ∈ G, g.2.length = 2 * g.1 + 1 ∧ g.1 ≤ lmax) (l m : ℕ) (i : ι) :
    ∑ k ∈ Finset.range (dimLs (G.map Prod.fst)), (((G.map Prod.fst).foldl (expandStep lmax) (fun _ _ _ => 0, 0)).1 l m k) * ((G.map Prod.snd).flatten.getD k 0 i) =
      (G.map fun g => if g.1 = l ∧ InWin lmax l m then g.2.getD (m - (lmax - l)) 0 i else 0).sum := by
  induction G using List.reverseRecOn with
  | nil => simp [dimLs]
  | append_singleton G g ih =>
    have hg := hG g (by simp)
    have hG' : ∀ g ∈ G, g.2.length = 2 * g.1 + 1 ∧ g.1 ≤ lmax := fun g h => hG g (by simp [h])
    have hlen : (G.map Prod.snd).flatten.length = dimLs (G.map Prod.fst) := by
      rw [List.length_flatten, dimLs]
      congr 1
      rw [List.map_map, List.map_map]
      exact List.map_congr_left fun x hx => (hG' x hx).1
    have hd : dimLs ((G ++ [g]).map Prod.fst) = dimLs (G.map Prod.fst) + (2 * g.1 + 1) := by simp [dimLs]
    rw [hd, Finset.sum_range_add, List.map_append, List.map_append, List.map_append, List.sum_append, ← ih hG']
    have hs := expand_foldl lmax (G.map Prod.fst)
    congr 1
    · refine Finset.sum_congr rfl fun k hk => ?_
      have hk := Finset.mem_range.mp hk
      rw [List.foldl_append]
      simp only [List.map_cons, List.map_nil, List.foldl_cons, List.foldl_nil, expandStep]
      rw [hs.1, if_neg (by omega), List.flatten_append, List.getD_append _ _ _ _ (by omega)]
    · simp only [List.map_cons, List.map_nil, List.sum_cons, List.sum_nil, add_zero]
      rw [List.foldl_append]
      have e : ∀ k ∈ Finset.range (2 * g.1 + 1), (([g.1].foldl (expandStep lmax) ((G.map Prod.fst).foldl (expandStep lmax) (fun _ _ _ => 0, 0))).1 l m (dimLs (G.map Prod.fst) + k)) *
          (((G.map Prod.snd) ++ [g.2]).flatten.getD (dimLs (G.map Prod.fst) + k) 0 i) =
          if m - (lmax - l) = k then (if g.1 = l ∧ InWin lmax l m then g.2.getD (m - (lmax - l)) 0 i else 0) else 0 := by
        intro k hk
        have hk := Finset.mem_range.mp hk
        simp only [List.foldl_cons, List.foldl_nil, expandStep]
        rw [hs.1, List.flatten_append, List.getD_append_right _ _ _ _ (by omega), hlen, Nat.add_sub_cancel_left]
        have e1 : ([g.2] : List (List (ι → ℝ))).flatten = g.2 := by simp
        rw [e1]
        by_cases hw : g.1 = l ∧ InWin lmax l m
        · obtain ⟨rfl, hw⟩ := hw
          rw [if_pos ⟨rfl, ⟨hw.1, hw.2⟩, by omega, by omega⟩]
          by_cases hmk : m - (lmax - g.1) = k
          · rw [if_pos hmk, if_pos hmk, if_pos ⟨rfl, hw⟩, one_mul, hmk]
          · rw [if_neg hmk, if_neg hmk, zero_mul]
        · rw [if_neg (fun h => hw ⟨h.1.symm, by rw [h.1]; exact h.2.1⟩), if_neg hw, hs.2 _ _ _ (by omega), zero_mul]
          simp
      rw [Finset.sum_congr rfl e, Finset.sum_ite_eq]
      by_cases hw : g.1 = l ∧ InWin lmax l m
      · have := hw.2.1; have := hw.2.2
        rw [if_pos hw, if_pos (Finset.mem_range.mpr (by omega))]
      · rw [if_neg hw]; simp

theorem foldl_max_eq {ls : List ℕ} {L : ℕ} (hle : ∀ l ∈ ls, l ≤ L) (hm : L ∈ ls) : ls.foldl max 0 = L := by
  have key : ∀ (ls : List ℕ) (a : ℕ), a ≤ L → (∀ l ∈ ls, l ≤ L) → ls.foldl max a ≤ L ∧ a ≤ ls.foldl max a ∧ ∀ l ∈ ls, l ≤ ls.foldl max a := by
    intro ls
    induction ls with
    | nil => intro a ha _; exact ⟨ha, le_rfl, by simp⟩
    | cons x xs ih =>
      intro a ha h
      have h1 := ih (max a x) (max_le ha (h x (by simp))) (fun l hl => h l (by simp [hl]))
      rw [List.foldl_cons]
      refine ⟨h1.1, (le_max_left _ _).trans h1.2.1, ?_⟩
      intro l hl
      rcases List.mem_cons.mp hl with rfl | hl
      · exact (le_max_right _ _).trans h1.2.1
      · exact h1.2.2 l hl
  have h := key ls 0 (Nat.zero_le _) hle
  exact le_antisymm h.1 (h.2.2 L hm)

theorem foldl_max_range (n : ℕ) : (List.range (n + 1)).foldl max 0 = n :=
  foldl_max_eq (fun l hl => by have := List.mem_range.mp hl; omega) (List.mem_range.mpr (by omega))

theorem dimLs_range (n : ℕ) : dimLs (List.range n) = n ^ 2 := by
  induction n with
  | zero => rfl
  | succ n ih =>
    have : dimLs (List.range (n + 1)) = dimLs (List.range n) + (2 * n + 1) := by simp [dimLs, List.range_succ]
    rw [this, ih]; ring

/-- The function of `beta` of every degree and order. -/
theorem rollout_dot {lmax l : ℕ} (hl : l ≤ lmax) (y : ℝ) (m : ℕ) :
    ∑ j ∈ Finset.range ((lmax + 1) ^ 2), expandMatrix (List.range (lmax + 1)) l m j * (rolloutSh lmax y).getD j 0 =
      if InWin lmax l m then shBeta l ((m : ℤ) - lmax).natAbs y else 0 := by
  let G : List (ℕ × List (Unit → ℝ)) := (List.range (lmax + 1)).map fun l => (l, (List.range (2 * l + 1)).map fun i : ℕ => fun _ => shBeta l ((i : ℤ) - l).natAbs y)
  have hG : ∀ g ∈ G, g.2.length = 2 * g.1 + 1 ∧ g.1 ≤ lmax := by
    intro g hg
    obtain ⟨k, hk, rfl⟩ := List.mem_map.mp hg
    have := List.mem_range.mp hk
    refine ⟨by simp, ?_⟩
    simp only; omega
  have h1 : G.map Prod.fst = List.range (lmax + 1) := by
    simp [G, List.map_map, Function.comp_def]
  have h2 : (G.map Prod.snd).flatten.map (fun f => f ()) = rolloutSh lmax y := by
    simp only [G, rolloutSh, List.map_map, List.map_flatten, List.flatMap_def]
    congr 1
    refine List.map_congr_left fun k _ => ?_
    simp [Function.comp_def]
  have h := expand_dot lmax G hG l m ()
  rw [h1, dimLs_range] at h
  have e : ∀ j ∈ Finset.range ((lmax + 1) ^ 2), expandMatrix (List.range (lmax + 1)) l m j * (rolloutSh lmax y).getD j 0 =
      (((List.range (lmax + 1)).foldl (expandStep lmax) (fun _ _ _ => 0, 0)).1 l m j) * ((G.map Prod.snd).flatten.getD j 0 ()) := by
    intro j _
    unfold expandMatrix
    rw [foldl_max_range, ← h2, show (0 : ℝ) = (fun f : Unit → ℝ => f ()) 0 from rfl, List.getD_map]
  rw [Finset.sum_congr rfl e, h]
  simp only [G, List.map_map, Function.comp_def]
  rw [list_range_sum]
  rw [Finset.sum_eq_single l]
  · by_cases hw : InWin lmax l m
    · rw [if_pos ⟨rfl, hw⟩, if_pos hw]
      have := hw.1; have := hw.2
      rw [List.getD_eq_getElem?_getD, List.getElem?_map, List.getElem?_range (by omega)]
      simp only [Option.map_some, Option.getD_some]
      congr 2
      omega
    · rw [if_neg hw, if_neg (fun h => hw h.2)]
  · intro k _ hk
    rw [if_neg (fun h => hk h.1)]
  · intro h; exact absurd (Finset.mem_range.mpr (by omega)) h

/-- The coefficients of `einsum("lmj,bj,lmi,l->mbi")` and `einsum("lmj,bj,lmi,l,b->mbi")` in closed form. -/
theorem shYTo_eq (nrm : Normalization) (lmax : ℕ) (ls : List ℕ) (y : ℝ) (m i : ℕ) :
    shYTo nrm lmax ls y m i = ∑ l ∈ Finset.range (lmax + 1), (if InWin lmax l m then shBeta l ((m : ℤ) - lmax).natAbs y else 0) * expandMatrix ls l m i * normTo nrm lmax l := by
  unfold shYTo
  refine Finset.sum_congr rfl fun l hl => ?_
  rw [← rollout_dot (by have := Finset.mem_range.mp hl; omega), Finset.sum_mul, Finset.sum_mul]

theorem shYFrom_eq (nrm : Normalization) (lmax lmaxIn : ℕ) (ls : List ℕ) (y qw : ℝ) (m i : ℕ) :
    shYFrom nrm lmax lmaxIn ls y qw m i =
      ∑ l ∈ Finset.range (lmax + 1), (if InWin lmax l m then shBeta l ((m : ℤ) - lmax).natAbs y else 0) * expandMatrix ls l m i * normFrom nrm lmax lmaxIn l * qw := by
  unfold shYFrom
  refine Finset.sum_congr rfl fun l hl => ?_
  rw [← rollout_dot (by have := Finset.mem_range.mp hl; omega), Finset.sum_mul, Finset.sum_mul, Finset.sum_mul]

/-- The sum over the coefficients at one `y` and one order. -/
theorem signalB_eq (nrm : Normalization) {lmax : ℕ} (G : List (ℕ × List (ι → ℝ))) (hG : ∀ g ∈ G, g.2.length = 2 * g.1 + 1 ∧ g.1 ≤ lmax) (hmax : lmax ∈ G.map Prod.fst)
    (y : ℝ) (m : ℕ) (i : ι) :
    signalB nrm lmax (G.map Prod.fst) y (G.map Prod.snd).flatten m i =
      (G.map fun g => if InWin lmax g.1 m then normTo nrm lmax g.1 * shBeta g.1 ((m : ℤ) - lmax).natAbs y * g.2.getD (m - (lmax - g.1)) 0 i else 0).sum := by
  have hm : (G.map Prod.fst).foldl max 0 = lmax := foldl_max_eq (fun l hl => by obtain ⟨g, hg, rfl⟩ := List.mem_map.mp hl; exact (hG g hg).2) hmax
  have hlen : (G.map Prod.snd).flatten.length = dimLs (G.map Prod.fst) := by
    rw [List.length_flatten, dimLs]
    congr 1
    rw [List.map_map, List.map_map]
    exact List.map_congr_left fun x hx => (hG x hx).1
  unfold signalB
  rw [hlen]
  calc _ = ∑ l ∈ Finset.range (lmax + 1), (if InWin lmax l m then shBeta l ((m : ℤ) - lmax).natAbs y else 0) * normTo nrm lmax l *
        ∑ k ∈ Finset.range (dimLs (G.map Prod.fst)), expandMatrix (G.map Prod.fst) l m k * ((G.map Prod.snd).flatten.getD k 0 i) := by
        simp_rw [shYTo_eq, Finset.sum_mul, Finset.mul_sum]
        rw [Finset.sum_comm]
        exact Finset.sum_congr rfl fun l _ => Finset.sum_congr rfl fun k _ => by ring
    _ = ∑ l ∈ Finset.range (lmax + 1), (G.map fun g => if g.1 = l then (if InWin lmax g.1 m then normTo nrm lmax g.1 * shBeta g.1 ((m : ℤ) - lmax).natAbs y * g.2.getD (m - (lmax - g.1)) 0 i else 0) else 0).sum := by
        refine Finset.sum_congr rfl fun l _ => ?_
        unfold expandMatrix
        rw [hm, expand_dot lmax G hG l m i, ← List.sum_map_mul_left]
        congr 1
        refine List.map_congr_left fun g _ => ?_
        by_cases h1 : g.1 = l
        · subst h1
          by_cases h2 : InWin lmax g.1 m
          · simp only [h2, and_self, if_true]; ring
          · simp [h2]
        · simp [h1]
    _ = _ := by
        clear hmax hm hlen
        induction G with
        | nil => simp
        | cons g G ih =>
          simp only [List.map_cons, List.sum_cons, Finset.sum_add_distrib]
          rw [ih fun g h => hG g (by simp [h]), Finset.sum_ite_eq, if_pos (Finset.mem_range.mpr (by have := (hG g (by simp)).2; omega))]

end E3nn.S2

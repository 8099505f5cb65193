import Verif.Lemmas.PermRepr

/-! The closure loop on signed permutations. -/

namespace E3nn.PermRepr

open E3nn.Perm

/-- A signed permutation of `n` indices. -/
def IsS (n : ℕ) (q : SPerm) : Prop := (q.1 = 1 ∨ q.1 = -1) ∧ q.2.Perm (List.range n)

def sinv (q : SPerm) : SPerm := (q.1, Perm.inv q.2)
def scomp (q r : SPerm) : SPerm := (q.1 * r.1, Perm.comp q.2 r.2)

theorem IsS.inv {n : ℕ} {q : SPerm} (h : IsS n q) : IsS n (sinv q) := ⟨h.1, inv_perm h.2⟩
theorem IsS.comp {n : ℕ} {q r : SPerm} (h : IsS n q) (h' : IsS n r) : IsS n (scomp q r) :=
  ⟨by
    show q.1 * r.1 = 1 ∨ q.1 * r.1 = -1
    rcases h.1 with a | a <;> rcases h'.1 with b | b <;> simp [a, b], comp_perm h.2 h'.2⟩

theorem closeStep_spec {n : ℕ} {s : List SPerm} (hb : ∀ q ∈ s, IsS n q) :
    ∃ s', closeStep s = .ok s' ∧ s'.Nodup ∧ (∀ q ∈ s', IsS n q) ∧ (∀ q ∈ s, q ∈ s') ∧
      (∀ q ∈ s, sinv q ∈ s') ∧ (∀ q ∈ s, ∀ r ∈ s, scomp q r ∈ s') ∧
      (∀ T : SPerm → Prop, (∀ q ∈ s, T q) → (∀ q, IsS n q → T q → T (sinv q)) → (∀ q r, IsS n q → IsS n r → T q → T r → T (scomp q r)) → ∀ q ∈ s', T q) := by
  have h1 : s.mapM (fun q => (inverse q.2).map fun r => ((q.1, r) : SPerm)) = .ok (s.map sinv) :=
    mapM_ok fun q hq => by rw [inverse_eq (hb q hq).2]; rfl
  have hm1 : ∀ q, q ∈ (s ++ s.map sinv).eraseDups ↔ q ∈ s ∨ ∃ r ∈ s, sinv r = q := by
    intro q; rw [List.mem_eraseDups, List.mem_append, List.mem_map]
  have hb1 : ∀ q ∈ (s ++ s.map sinv).eraseDups, IsS n q := by
    intro q hq
    rcases (hm1 q).mp hq with hq | ⟨r, hr, rfl⟩
    · exact hb q hq
    · exact (hb r hr).inv
  generalize hs1 : (s ++ s.map sinv).eraseDups = s1 at hm1 hb1
  have h2 : (s1.flatMap fun a => s1.map fun b => (a, b)).mapM (fun ab => (compose ab.1.2 ab.2.2).map fun r => ((ab.1.1 * ab.2.1, r) : SPerm)) =
      .ok ((s1.flatMap fun a => s1.map fun b => (a, b)).map fun ab => scomp ab.1 ab.2) := by
    apply mapM_ok
    rintro ⟨a, b⟩ hab
    simp only [List.mem_flatMap, List.mem_map, Prod.mk.injEq] at hab
    obtain ⟨p, hp, q, hq, rfl, rfl⟩ := hab
    simp only
    rw [compose_eq (hb1 _ hp).2 (hb1 _ hq).2]; rfl
  have hm2 : ∀ q, q ∈ (s1 ++ (s1.flatMap fun a => s1.map fun b => (a, b)).map fun ab => scomp ab.1 ab.2).eraseDups ↔
      q ∈ s1 ∨ ∃ a ∈ s1, ∃ b ∈ s1, scomp a b = q := by
    intro q
    rw [List.mem_eraseDups, List.mem_append, List.mem_map]
    refine or_congr_right ⟨?_, ?_⟩
    · rintro ⟨⟨a, b⟩, hab, rfl⟩
      simp only [List.mem_flatMap, List.mem_map, Prod.mk.injEq] at hab
      obtain ⟨p, hp, q, hq, rfl, rfl⟩ := hab
      exact ⟨_, hp, _, hq, rfl⟩
    · rintro ⟨a, ha, b, hb, rfl⟩
      exact ⟨(a, b), List.mem_flatMap.mpr ⟨a, ha, List.mem_map.mpr ⟨b, hb, rfl⟩⟩, rfl⟩
  refine ⟨_, ?_, nodup_eraseDups (s1 ++ (s1.flatMap fun a => s1.map fun b => (a, b)).map fun ab => scomp ab.1 ab.2), ?_, ?_, ?_, ?_, ?_⟩
  · unfold closeStep
    rw [h1]
    simp only [hs1]
    rw [h2]
  · intro q hq
    rcases (hm2 q).mp hq with hq | ⟨a, ha, b, hb', rfl⟩
    · exact hb1 q hq
    · exact (hb1 a ha).comp (hb1 b hb')
  · exact fun q hq => (hm2 q).mpr (.inl ((hm1 q).mpr (.inl hq)))
  · exact fun q hq => (hm2 _).mpr (.inl ((hm1 _).mpr (.inr ⟨q, hq, rfl⟩)))
  · exact fun q hq r hr => (hm2 _).mpr (.inr ⟨q, (hm1 q).mpr (.inl hq), r, (hm1 r).mpr (.inl hr), rfl⟩)
  · intro T h0 hi hc q hq
    have hT : ∀ q ∈ s1, T q := by
      intro q hq
      rcases (hm1 q).mp hq with hq | ⟨r, hr, rfl⟩
      · exact h0 q hq
      · exact hi r (hb r hr) (h0 r hr)
    rcases (hm2 q).mp hq with hq | ⟨a, ha, b, hb', rfl⟩
    · exact hT q hq
    · exact hc a b (hb1 a ha) (hb1 b hb') (hT a ha) (hT b hb')

theorem length_le_signed {n : ℕ} {s : List SPerm} (hn : s.Nodup) (hb : ∀ q ∈ s, IsS n q) : s.length ≤ 2 * factorial n := by
  have hsub : s ⊆ (group n).map (fun p => ((1, p) : SPerm)) ++ (group n).map fun p => ((-1, p) : SPerm) := by
    intro q hq
    have hp : q.2 ∈ group n := ((C25_group n).1 q.2).mpr ((isBij_iff_perm n q.2).mpr (hb q hq).2)
    rw [List.mem_append, List.mem_map, List.mem_map]
    rcases (hb q hq).1 with h | h
    · exact .inl ⟨q.2, hp, by rw [← h]⟩
    · exact .inr ⟨q.2, hp, by rw [← h]⟩
  have := (List.subperm_of_subset hn hsub).length_le
  rw [List.length_append, List.length_map, List.length_map, (C25_group n).2.2] at this
  omega

theorem close_spec {n : ℕ} (fuel : ℕ) (s : List SPerm) (hn : s.Nodup) (hb : ∀ q ∈ s, IsS n q) (hf : 2 * factorial n < fuel + s.length) :
    ∃ g, close fuel s = some (.ok g) ∧ g.Nodup ∧ (∀ q ∈ g, IsS n q) ∧ (∀ q ∈ s, q ∈ g) ∧
      (∀ q ∈ g, sinv q ∈ g) ∧ (∀ q ∈ g, ∀ r ∈ g, scomp q r ∈ g) ∧
      (∀ T : SPerm → Prop, (∀ q ∈ s, T q) → (∀ q, IsS n q → T q → T (sinv q)) → (∀ q r, IsS n q → IsS n r → T q → T r → T (scomp q r)) → ∀ q ∈ g, T q) := by
  induction fuel generalizing s with
  | zero =>
    have := length_le_signed hn hb
    omega
  | succ fuel ih =>
    obtain ⟨s', h1, h2, h3, h4, h5, h6, h7⟩ := closeStep_spec hb
    have hsp : s.Subperm s' := List.subperm_of_subset hn h4
    unfold close
    rw [h1]
    simp only
    by_cases hl : s'.length = s.length
    · rw [if_pos hl]
      have hp : s.Perm s' := hsp.perm_of_length_le (by omega)
      exact ⟨s', rfl, h2, h3, h4, fun p hp' => h5 p (hp.mem_iff.mpr hp'), fun p hp' q hq' => h6 p (hp.mem_iff.mpr hp') q (hp.mem_iff.mpr hq'), h7⟩
    · rw [if_neg hl]
      have hle := hsp.length_le
      obtain ⟨g, k1, k2, k3, k4, k5, k6, k7⟩ := ih s' h2 h3 (by omega)
      exact ⟨g, k1, k2, k3, fun p hp => k4 p (h4 p hp), k5, k6, fun T hs hi hc => k7 T (h7 T hs hi hc) hi hc⟩

/-! ### The generators of a formula -/

theorem isPermOf_generator {f0 f : List Char} (h0 : f0.Nodup) (hf : f.Nodup) (hm : ∀ c, c ∈ f ↔ c ∈ f0) : (f0.map f.idxOf).Perm (List.range f0.length) := by
  have hp : f0.Perm f := (List.perm_ext_iff_of_nodup h0 hf).mpr fun c => (hm c).symm
  refine (hp.map f.idxOf).trans ?_
  rw [hp.length_eq]
  have : f.map f.idxOf = List.range f.length := by
    apply List.ext_getElem (by simp)
    intro i h1 h2
    simp only [List.getElem_map, List.getElem_range]
    exact List.Nodup.idxOf_getElem hf i _
  rw [this]

theorem nodup_of_eraseDups_length {α : Type} [DecidableEq α] (l : List α) : l.eraseDups.length = l.length ↔ l.Nodup := by
  constructor
  · intro h
    have hs : l.eraseDups.Subperm l := List.subperm_of_subset (nodup_eraseDups l) fun a ha => List.mem_eraseDups.mp ha
    have := hs.perm_of_length_le (by omega)
    exact this.nodup_iff.mp (nodup_eraseDups l)
  · intro h
    have := (List.perm_ext_iff_of_nodup (nodup_eraseDups l) h).mpr fun a => List.mem_eraseDups
    exact this.length_eq

/-- The formula `f` has each letter of `f0` exactly once. -/
theorem badFormula_false {f0 f : List Char} : badFormula f0 f = false ↔ f.Nodup ∧ (∀ c, c ∈ f ↔ c ∈ f0) ∧ f0.length = f.length := by
  unfold badFormula
  simp only [Bool.or_eq_false_iff, bne_eq_false_iff_eq, Bool.not_eq_false', Bool.and_eq_true, List.all_eq_true, List.contains_iff_mem, nodup_of_eraseDups_length]
  constructor
  · rintro ⟨⟨h1, h2, h3⟩, h4⟩
    exact ⟨h1, fun c => ⟨h2 c, h3 c⟩, h4⟩
  · rintro ⟨h1, h2, h3⟩
    exact ⟨⟨h1, fun c hc => (h2 c).mp hc, fun c hc => (h2 c).mpr hc⟩, h3⟩

end E3nn.PermRepr

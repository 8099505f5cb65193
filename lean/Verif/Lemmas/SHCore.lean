import Verif.Lemmas.SphHarm

/-! # The context of the recursive algorithm -/

namespace E3nn.SH

open E3nn.SU2 E3nn.Wig E3nn.Rot Matrix

/-- The context holds spherical harmonics only. -/
def GoodCtx (nrm : Normalization) (x : Fin 3 → ℝ) (c : Ctx) : Prop := ∀ l v, c l = some v → v = Y nrm l x

theorem Ctx.set_same (c : Ctx) (l : ℕ) (v : Fin (2 * l + 1) → ℝ) : (c.set l v) l = some v := by simp [Ctx.set]

theorem Ctx.set_other (c : Ctx) {l l' : ℕ} (v : Fin (2 * l + 1) → ℝ) (h : l' ≠ l) : (c.set l v) l' = c l' := by simp [Ctx.set, h]

theorem GoodCtx.set {nrm : Normalization} {x : Fin 3 → ℝ} {c : Ctx} (h : GoodCtx nrm x c) (l : ℕ) {v : Fin (2 * l + 1) → ℝ} (hv : v = Y nrm l x) :
    GoodCtx nrm x (c.set l v) := by
  intro l' w hw
  by_cases e : l' = l
  · subst e
    rw [Ctx.set_same] at hw
    injection hw with hw
    rw [← hw, hv]
  · rw [Ctx.set_other c v e] at hw
    exact h l' w hw

theorem dense_smul {l1 l2 l : ℕ} (C : Fin (2 * l1 + 1) → Fin (2 * l2 + 1) → Fin (2 * l + 1) → ℝ) (u v) :
    sparse C u v = dense C u v := by
  funext k
  unfold sparse dense
  rw [Finset.sum_filter, ← Finset.univ_product_univ, Finset.sum_product]
  refine Finset.sum_congr rfl fun i _ => Finset.sum_congr rfl fun j _ => ?_
  simp only
  split
  · ring
  · rename_i h
    rw [ne_eq, not_not] at h
    rw [h]; ring

/-- `c'` has the entry `l` and everything that was in `c`. -/
def Extends (c c' : Ctx) : Prop := ∀ l, (c l).isSome → (c' l).isSome

theorem Extends.refl (c : Ctx) : Extends c c := fun _ h => h
theorem Extends.trans {a b c : Ctx} (h : Extends a b) (h' : Extends b c) : Extends a c := fun l hl => h' l (h l hl)

theorem extends_set (c : Ctx) (l : ℕ) (v : Fin (2 * l + 1) → ℝ) : Extends c (c.set l v) := by
  intro l' h
  by_cases e : l' = l
  · subst e; rw [Ctx.set_same]; rfl
  · rw [Ctx.set_other c v e]; exact h

/-- Every call succeeds, returns the polynomials and stores their values. -/
theorem recursiveSH_spec (nrm : Normalization) {alg : List String} (ha : "dense" ∈ alg ∨ "sparse" ∈ alg) (x : Fin 3 → ℝ) (l : ℕ) :
    ∀ c, GoodCtx nrm x c → ∃ c', recursiveSH nrm alg x l c = .ok (Y nrm l, c') ∧ GoodCtx nrm x c' ∧ Extends c c' ∧ (c' l).isSome := by
  induction l using Nat.strong_induction_on with
  | _ l ih =>
    match l, ih with
    | 0, ih =>
      intro c hc
      rw [recursiveSH]
      have hY : Y nrm 0 = fun _ _ => cst0 nrm := by funext x; rw [Y_zero]
      by_cases h : (c 0).isNone
      · refine ⟨c.set 0 (fun _ => cst0 nrm), ?_, hc.set 0 (by rw [hY]), extends_set _ _ _, by rw [Ctx.set_same]; rfl⟩
        rw [if_pos h, hY]
      · refine ⟨c, ?_, hc, Extends.refl c, by simpa [Option.isSome_iff_ne_none] using h⟩
        rw [if_neg h, hY]
    | 1, ih =>
      intro c hc
      rw [recursiveSH]
      have hY : Y nrm 1 = fun x (i : Fin 3) => cst1 nrm * x i := by funext x; rw [Y_one]
      by_cases h : (c 1).isNone
      · refine ⟨c.set 1 (fun i : Fin 3 => cst1 nrm * x i), ?_, hc.set 1 (by rw [hY]), extends_set _ _ _, by rw [Ctx.set_same]; rfl⟩
        rw [if_pos h, hY]
      · refine ⟨c, ?_, hc, Extends.refl c, by simpa [Option.isSome_iff_ne_none] using h⟩
        rw [if_neg h, hY]
    | n + 2, ih =>
      intro c hc
      have hp := biggestPowerOfTwo_pos (n + 2 - 1)
      have hl := biggestPowerOfTwo_le (n := n + 2 - 1) (by omega)
      obtain ⟨c1, e1, g1, x1, s1⟩ := ih (n + 2 - biggestPowerOfTwo (n + 2 - 1)) (by omega) c hc
      obtain ⟨c2, e2, g2, x2, s2⟩ := ih (biggestPowerOfTwo (n + 2 - 1)) (by omega) c1 g1
      rw [recursiveSH]
      simp only [e1, e2]
      have hY := funext fun x => Y_step nrm n x
      by_cases h : (c2 (n + 2)).isNone
      · rw [if_pos h]
        obtain ⟨u, hu⟩ := Option.isSome_iff_exists.mp (x2 _ s1)
        obtain ⟨v, hv⟩ := Option.isSome_iff_exists.mp s2
        have eu := g2 _ _ hu
        have ev := g2 _ _ hv
        have hd : dense (fun i j k => cstStep nrm (n + 2) (n + 2 - biggestPowerOfTwo (n + 2 - 1)) (biggestPowerOfTwo (n + 2 - 1)) /
            poleNorm (n + 2 - biggestPowerOfTwo (n + 2 - 1)) (biggestPowerOfTwo (n + 2 - 1)) (n + 2) *
            clebschGordan (n + 2 - biggestPowerOfTwo (n + 2 - 1)) (biggestPowerOfTwo (n + 2 - 1)) (n + 2) i j k) u v = Y nrm (n + 2) x := by
          rw [Y_step, eu, ev]
          funext k
          unfold dense
          rw [mul_div_assoc', Finset.mul_sum, Finset.sum_div]
          refine Finset.sum_congr rfl fun i _ => ?_
          rw [Finset.mul_sum, Finset.sum_div]
          exact Finset.sum_congr rfl fun j _ => by ring
        simp only [Ctx.get, hu, hv]
        by_cases hda : "dense" ∈ alg
        · rw [if_pos hda, hd]
          refine ⟨_, ?_, g2.set _ rfl, (x1.trans x2).trans (extends_set _ _ _), by rw [Ctx.set_same]; rfl⟩
          rw [hY]
        · rw [if_neg hda, if_pos (ha.resolve_left hda), dense_smul, hd]
          refine ⟨_, ?_, g2.set _ rfl, (x1.trans x2).trans (extends_set _ _ _), by rw [Ctx.set_same]; rfl⟩
          rw [hY]
      · rw [if_neg h]
        refine ⟨c2, ?_, g2, x1.trans x2, by simpa [Option.isSome_iff_ne_none] using h⟩
        rw [hY]

theorem fillContext_spec (nrm : Normalization) {alg : List String} (ha : "dense" ∈ alg ∨ "sparse" ∈ alg) (x : Fin 3 → ℝ) (ls : List ℕ) :
    ∀ c, GoodCtx nrm x c → ∃ c', fillContext nrm alg x ls c = .ok c' ∧ GoodCtx nrm x c' ∧ Extends c c' ∧ ∀ l ∈ ls, (c' l).isSome := by
  induction ls with
  | nil => intro c hc; exact ⟨c, rfl, hc, Extends.refl c, by simp⟩
  | cons l ls ih =>
    intro c hc
    obtain ⟨c1, e1, g1, x1, s1⟩ := recursiveSH_spec nrm ha x l c hc
    obtain ⟨c2, e2, g2, x2, s2⟩ := ih c1 g1
    refine ⟨c2, ?_, g2, x1.trans x2, ?_⟩
    · simp only [fillContext, e1, e2]
    · intro l' hl'
      rcases List.mem_cons.mp hl' with rfl | h
      · exact x2 _ s1
      · exact s2 _ h

theorem mapM_ok {α β : Type} (f : α → Except PyErr β) (g : α → β) (l : List α) (h : ∀ a ∈ l, f a = .ok (g a)) : l.mapM f = .ok (l.map g) := by
  induction l with
  | nil => rfl
  | cons a l ih =>
    rw [List.mapM_cons, h a (by simp), ih (fun b hb => h b (by simp [hb]))]
    rfl

/-- The values of `_spherical_harmonics` are those of the polynomials. -/
def CoreOk (nrm : Normalization) (alg : List String) : Prop :=
  ∀ ls : List ℕ, ls ≠ [] → ∀ x, shCore nrm alg ls x = .ok (ls.map fun l => ⟨l, Y nrm l x⟩)

theorem coreOk_recursive (nrm : Normalization) {alg : List String} (h0 : "legendre" ∉ alg) (h1 : "recursive" ∈ alg)
    (ha : "dense" ∈ alg ∨ "sparse" ∈ alg) : CoreOk nrm alg := by
  intro ls _ x
  obtain ⟨c, e, g, -, s⟩ := fillContext_spec nrm ha x ls (fun _ => none) (by intro l v h; simp at h)
  unfold shCore
  rw [if_neg h0, if_pos h1, e]
  simp only
  refine mapM_ok _ (fun l => (⟨l, Y nrm l x⟩ : Vals)) ls ?_
  intro l hl
  obtain ⟨v, hv⟩ := Option.isSome_iff_exists.mp (s l hl)
  simp only [Ctx.get, hv]
  rw [g l v hv]

end E3nn.SH

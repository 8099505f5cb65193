import Verif.Lemmas.EquivTest
import Verif.Spec.EquivTest

/-!
# C107: `equivariance_test` decides equivariance
-/

namespace E3nn.EqTest

open E3nn.IArr E3nn.Rot E3nn.SO3 E3nn.Wig MeasureTheory ProbabilityTheory
open scoped Matrix

/-- `equivariance_test(fun, key, *ins)`, for the random numbers `w`. -/
noncomputable def test (fn : List (IArr ℝ) → Except PyErr (IArr ℝ)) (ins : List Irreps) (w : (ℝ × ℝ × ℝ) × Vecs ins) : Except PyErr (IArr ℝ × IArr ℝ) :=
  equivarianceTest fn w.1 (List.ofFn fun k => List.ofFn (w.2 k)) (ins.map .irreps)

theorem mapM_index {α β : Type} {f : α → Except PyErr β} : ∀ (l : List α) (P : ℕ → β → Prop), (∀ (i : ℕ) (h : i < l.length), ∃ b, f l[i] = .ok b ∧ P i b) →
    ∃ r, l.mapM f = .ok r ∧ r.length = l.length ∧ ∀ (i : ℕ) (h : i < r.length), P i r[i] := by
  intro l
  induction l with
  | nil => intro P _; exact ⟨[], rfl, rfl, fun i h => by simp at h⟩
  | cons a l ih =>
    intro P h
    obtain ⟨b, hb, hP⟩ := h 0 (by simp)
    obtain ⟨r, hr, h1, h2⟩ := ih (fun i => P (i + 1)) fun i hi => by
      have := h (i + 1) (by simp; omega)
      simpa using this
    refine ⟨b :: r, ?_, by simp [h1], ?_⟩
    · rw [List.mapM_cons, hr]
      simp only [List.getElem_cons_zero] at hb
      rw [hb]; rfl
    · intro i hi
      cases i with
      | zero => exact hP
      | succ i => exact h2 i (by simpa using hi)

theorem newArgs_irreps : ∀ (ins : List Irreps) (gs : List (List ℝ)), gs.length = ins.length →
    newArgs (ins.map .irreps) gs = (ins.zip gs).mapM fun p => ofArray p.1 p.2 := by
  intro ins
  induction ins with
  | nil => intro gs _; rfl
  | cons ir ins ih =>
    intro gs h
    cases gs with
    | nil => simp at h
    | cons g gs =>
      simp only [List.map_cons, newArgs, List.zip_cons_cons, List.mapM_cons]
      rw [ih gs (by simpa using h)]

theorem newArgs_ok (ins : List Irreps) (g : Vecs ins) : ∃ args, newArgs (ins.map .irreps) (List.ofFn fun k => List.ofFn (g k)) = .ok args ∧ Holds ins g args := by
  rw [newArgs_irreps ins _ (by simp)]
  obtain ⟨r, h1, h2, h3⟩ := mapM_index (f := fun p : Irreps × List ℝ => ofArray p.1 p.2) (ins.zip (List.ofFn fun k => List.ofFn (g k)))
    (fun i b => ∃ h : i < ins.length, b.Coherent ∧ b.irreps = ins.get ⟨i, h⟩ ∧ b.array = List.ofFn (g ⟨i, h⟩)) (by
      intro i hi
      have hi' : i < ins.length := by simpa using hi
      obtain ⟨x, x1, x2, x3, x4⟩ := of_vec (ins.get ⟨i, hi'⟩) (g ⟨i, hi'⟩)
      refine ⟨x, ?_, hi', x2, x3, x4⟩
      rw [← x1]
      simp)
  have hl : r.length = ins.length := by simpa using h2
  refine ⟨r, h1, hl, fun k => ?_⟩
  obtain ⟨h, e⟩ := h3 k (by omega)
  exact e

theorem transform_ok {ins : List Irreps} {v : Vecs ins} {args : List (IArr ℝ)} (h : Holds ins v args) (R : Mat) :
    ∃ targs, args.mapM (fun a => a.transformByMatrix R) = .ok targs ∧ Holds ins (fun k => Dm (ins.get k) R *ᵥ v k) targs := by
  obtain ⟨r, h1, h2, h3⟩ := mapM_index (f := fun a : IArr ℝ => a.transformByMatrix R) args
    (fun i b => ∃ h : i < ins.length, b.Coherent ∧ b.irreps = ins.get ⟨i, h⟩ ∧ b.array = List.ofFn (Dm (ins.get ⟨i, h⟩) R *ᵥ v ⟨i, h⟩)) (by
      intro i hi
      have hi' : i < ins.length := by rw [← h.length]; exact hi
      obtain ⟨a1, a2, a3⟩ := h.args ⟨i, hi'⟩
      obtain ⟨y, y1, y2, y3, y4⟩ := trans_array R a1 a2 a3
      exact ⟨y, y1, hi', y2, y3, y4⟩)
  refine ⟨r, h1, h2.trans h.length, fun k => ?_⟩
  obtain ⟨h, e⟩ := h3 k (by rw [h2, h.length]; exact k.isLt)
  exact e

/-- Both results, in coordinates. -/
theorem commute_coord {fn : List (IArr ℝ) → Except PyErr (IArr ℝ)} {ins : List Irreps} {out : Irreps} {F : Vecs ins → Fin out.dim → ℝ} (hF : Computes fn ins out F)
    {v : Vecs ins} {args : List (IArr ℝ)} (h : Holds ins v args) (R : Mat) :
    ∃ targs out1 y out2, args.mapM (fun a => a.transformByMatrix R) = .ok targs ∧ fn targs = .ok out1 ∧ fn args = .ok y ∧ y.transformByMatrix R = .ok out2 ∧
      out1.irreps = out2.irreps ∧ out1.array = List.ofFn (F fun k => Dm (ins.get k) R *ᵥ v k) ∧ out2.array = List.ofFn (Dm out R *ᵥ F v) := by
  obtain ⟨targs, t1, t2⟩ := transform_ok h R
  obtain ⟨out1, o1, -, o2, o3⟩ := hF _ _ t2
  obtain ⟨y, y1, y2, y3, y4⟩ := hF _ _ h
  obtain ⟨out2, p1, -, p2, p3⟩ := trans_array R y2 y3 y4
  exact ⟨targs, out1, y, out2, t1, o1, y1, p1, o2.trans p2.symm, o3, p3⟩

theorem commutes_iff {fn : List (IArr ℝ) → Except PyErr (IArr ℝ)} {ins : List Irreps} {out : Irreps} {F : Vecs ins → Fin out.dim → ℝ} (hF : Computes fn ins out F)
    {v : Vecs ins} {args : List (IArr ℝ)} (h : Holds ins v args) (R : Mat) (ok : ℝ → ℝ → Prop) :
    Commutes fn ok R args ↔ ∀ j, ok (F (fun k => Dm (ins.get k) R *ᵥ v k) j) ((Dm out R *ᵥ F v) j) := by
  obtain ⟨targs, out1, y, out2, h1, h2, h3, h4, h5, h6, h7⟩ := commute_coord hF h R
  have key : List.Forall₂ ok out1.array out2.array ↔ ∀ j, ok (F (fun k => Dm (ins.get k) R *ᵥ v k) j) ((Dm out R *ᵥ F v) j) := by
    rw [h6, h7, List.forall₂_iff_get]
    constructor
    · intro hh j
      have := hh.2 j (by simp) (by simp)
      simpa using this
    · intro hh
      refine ⟨by simp, fun j a b => ?_⟩
      have := hh ⟨j, by simpa using a⟩
      simpa using this
  rw [← key]
  constructor
  · rintro ⟨t', a', y', b', e1, e2, e3, e4, e5, e6⟩
    rw [h1] at e1; cases e1
    rw [h2] at e2; cases e2
    rw [h3] at e3; cases e3
    rw [h4] at e4; cases e4
    exact e6
  · intro hh
    exact ⟨targs, out1, y, out2, h1, h2, h3, h4, h5, hh⟩

/-- The test, in coordinates. -/
theorem test_iff {fn : List (IArr ℝ) → Except PyErr (IArr ℝ)} {ins : List Irreps} {out : Irreps} {F : Vecs ins → Fin out.dim → ℝ} (hF : Computes fn ins out F)
    (w : (ℝ × ℝ × ℝ) × Vecs ins) (atol rtol : ℝ) : (∃ o, test fn ins w = .ok o ∧ passes atol rtol o) ↔
      ∀ j, |F (fun k => Dm (ins.get k) (-randMatrix w.1) *ᵥ w.2 k) j - (Dm out (-randMatrix w.1) *ᵥ F w.2) j| ≤ atol + rtol * |(Dm out (-randMatrix w.1) *ᵥ F w.2) j| := by
  obtain ⟨args, a1, a2⟩ := newArgs_ok ins w.2
  obtain ⟨targs, out1, y, out2, h1, h2, h3, h4, h5, h6, h7⟩ := commute_coord hF a2 (-randMatrix w.1)
  have e : test fn ins w = .ok (out1, out2) := by
    unfold test equivarianceTest
    rw [a1]
    simp only [bind, Except.bind, h1, h2, h3, h4, pure, Except.pure]
  rw [e]
  have e' : (∃ o, (Except.ok (out1, out2) : Except PyErr (IArr ℝ × IArr ℝ)) = .ok o ∧ passes atol rtol o) ↔ passes atol rtol (out1, out2) := by
    constructor
    · rintro ⟨o, ho, hp⟩; cases ho; exact hp
    · intro hp; exact ⟨_, rfl, hp⟩
  rw [e']
  unfold passes
  simp only [h5, h6, h7, List.length_ofFn, true_and]
  constructor
  · intro hh j
    have := hh j j.isLt
    rwa [getD_ofFn, getD_ofFn] at this
  · intro hh j hj
    rw [show (List.ofFn (F fun k => Dm (ins.get k) (-randMatrix w.1) *ᵥ w.2 k)).getD j 0 = _ from getD_ofFn _ _ ⟨j, hj⟩,
      show (List.ofFn (Dm out (-randMatrix w.1) *ᵥ F w.2)).getD j 0 = _ from getD_ofFn _ _ ⟨j, hj⟩]
    exact hh ⟨j, hj⟩

theorem act_continuous {X : Type} [TopologicalSpace X] (ir : Irreps) {f : X → ℝ × ℝ × ℝ} {g : X → Fin ir.dim → ℝ} (hf : Continuous f) (hg : Continuous g) :
    Continuous fun x => Dm ir (-randMatrix (f x)) *ᵥ g x := by
  refine continuous_pi fun a => ?_
  simp only [Matrix.mulVec, dotProduct]
  refine continuous_finset_sum _ fun b _ => ?_
  have h1 : Continuous fun x => Dm ir (-randMatrix (f x)) a b := (Dm_continuous ir a b).comp hf
  have h2 : Continuous fun x => g x b := (continuous_apply b).comp hg
  exact h1.mul h2

/-- An equivariant function passes the test whatever the random numbers. -/
theorem C107_sound {fn : List (IArr ℝ) → Except PyErr (IArr ℝ)} {ins : List Irreps} {out : Irreps} {F : Vecs ins → Fin out.dim → ℝ} (hF : Computes fn ins out F)
    (h : Equivariant fn ins) (atol rtol : ℝ) (ha : 0 ≤ atol) (hr : 0 ≤ rtol) (w : (ℝ × ℝ × ℝ) × Vecs ins) : ∃ o, test fn ins w = .ok o ∧ passes atol rtol o := by
  rw [test_iff hF]
  obtain ⟨args, -, a2⟩ := newArgs_ok ins w.2
  have := (commutes_iff hF a2 _ _).mp (h (-randMatrix w.1) (orth_neg (anglesToMatrix_rot _ _ _)) w.2 args a2)
  intro j
  rw [this j, sub_self, abs_zero]
  positivity

/-- If a continuous function passes with probability one, it commutes up to the tolerance with every rotation followed by the inversion, on all arguments. -/
theorem C107_tolerance {fn : List (IArr ℝ) → Except PyErr (IArr ℝ)} {ins : List Irreps} {out : Irreps} {F : Vecs ins → Fin out.dim → ℝ} (hF : Computes fn ins out F)
    (hc : Continuous F) (atol rtol : ℝ) (h : ∀ᵐ w ∂law ins, ∃ o, test fn ins w = .ok o ∧ passes atol rtol o)
    (R : Matrix (Fin 3) (Fin 3) ℝ) (hR : IsRotation R) (v : Vecs ins) (args : List (IArr ℝ)) (hv : Holds ins v args) :
    Commutes fn (fun a b => |a - b| ≤ atol + rtol * |b|) (-R) args := by
  simp only [test_iff hF] at h
  rw [commutes_iff hF hv]
  obtain ⟨u, hu, rfl⟩ := exists_draw hR
  have hopen : (Measure.pi fun k : Fin ins.length => Measure.pi fun _ : Fin (ins.get k).dim => gaussianReal 0 1).IsOpenPosMeasure := by
    haveI : (gaussianReal 0 1).IsOpenPosMeasure := (gaussianReal_absolutelyContinuous' 0 one_ne_zero).isOpenPosMeasure
    infer_instance
  have c1 : Continuous fun w : (ℝ × ℝ × ℝ) × Vecs ins => F fun k => Dm (ins.get k) (-randMatrix w.1) *ᵥ w.2 k := by
    have c0 : Continuous fun w : (ℝ × ℝ × ℝ) × Vecs ins => (fun k => Dm (ins.get k) (-randMatrix w.1) *ᵥ w.2 k : Vecs ins) := by
      refine continuous_pi fun k => ?_
      have c3 : Continuous fun w : (ℝ × ℝ × ℝ) × Vecs ins => w.2 k := (continuous_apply k).comp continuous_snd
      exact act_continuous (ins.get k) (f := fun w : (ℝ × ℝ × ℝ) × Vecs ins => w.1) (g := fun w => w.2 k) continuous_fst c3
    exact hc.comp c0
  have c2 : Continuous fun w : (ℝ × ℝ × ℝ) × Vecs ins => Dm out (-randMatrix w.1) *ᵥ F w.2 := by
    have c3 : Continuous fun w : (ℝ × ℝ × ℝ) × Vecs ins => F w.2 := hc.comp continuous_snd
    exact act_continuous out (f := fun w : (ℝ × ℝ × ℝ) × Vecs ins => w.1) (g := fun w => F w.2) continuous_fst c3
  have hC : IsClosed {w : (ℝ × ℝ × ℝ) × Vecs ins | ∀ j, |F (fun k => Dm (ins.get k) (-randMatrix w.1) *ᵥ w.2 k) j - (Dm out (-randMatrix w.1) *ᵥ F w.2) j| ≤
      atol + rtol * |(Dm out (-randMatrix w.1) *ᵥ F w.2) j|} := by
    rw [Set.setOf_forall]
    refine isClosed_iInter fun j => isClosed_le ?_ ?_
    · exact (((continuous_apply j).comp c1).sub ((continuous_apply j).comp c2)).abs
    · exact continuous_const.add (continuous_const.mul ((continuous_apply j).comp c2).abs)
  exact everywhere _ hC h hu v

/-- **The test is complete.** A continuous function for which both results agree with probability one is equivariant: it commutes with every rotation and every reflection, on all
arguments, although only rotations followed by the inversion are drawn. -/
theorem C107_complete {fn : List (IArr ℝ) → Except PyErr (IArr ℝ)} {ins : List Irreps} {out : Irreps} {F : Vecs ins → Fin out.dim → ℝ} (hF : Computes fn ins out F)
    (hc : Continuous F) (h : ∀ᵐ w ∂law ins, ∃ o, test fn ins w = .ok o ∧ passes 0 0 o) : Equivariant fn ins := by
  have key : ∀ R, IsRotation R → ∀ v : Vecs ins, F (fun k => Dm (ins.get k) (-R) *ᵥ v k) = Dm out (-R) *ᵥ F v := by
    intro R hR v
    obtain ⟨args, -, a2⟩ := newArgs_ok ins v
    have := (commutes_iff hF a2 _ _).mp (C107_tolerance hF hc 0 0 h R hR v args a2)
    funext j
    have := this j
    rw [zero_mul, add_zero] at this
    exact sub_eq_zero.mp (abs_nonpos_iff.mp this)
  intro R hR v args hv
  rw [commutes_iff hF hv]
  refine fun j => congrFun (?_ : F (fun k => Dm (ins.get k) R *ᵥ v k) = Dm out R *ᵥ F v) j
  have hO : IsOrth R := hR
  rcases hO.det_cases with hd | hd
  · have hr : IsRotation R := ⟨hR, hd⟩
    have h1 : IsOrth (-R) := orth_neg hr
    have h2 : IsOrth (-1 : Mat) := orth_neg isRotation_one
    have e : ∀ (ir : Irreps) (x : Fin ir.dim → ℝ), Dm ir R *ᵥ x = Dm ir (-R) *ᵥ (Dm ir (-1) *ᵥ x) := by
      intro ir x
      rw [← Dm_mul ir h1 h2]
      simp
    rw [e]
    simp only [e]
    rw [key R hr, key 1 isRotation_one]
  · have hr : IsRotation (-R) := by
      refine ⟨?_, ?_⟩
      · rw [Matrix.transpose_neg, neg_mul_neg]; exact hR
      · rw [Matrix.det_neg, hd]; simp; norm_num
    have := key (-R) hr v
    rwa [neg_neg] at this

/-- So a continuous function which is not equivariant fails with a positive probability, ... -/
theorem C107_detects {fn : List (IArr ℝ) → Except PyErr (IArr ℝ)} {ins : List Irreps} {out : Irreps} {F : Vecs ins → Fin out.dim → ℝ} (hF : Computes fn ins out F)
    (hc : Continuous F) (h : ¬ Equivariant fn ins) : 0 < law ins {w | ¬ ∃ o, test fn ins w = .ok o ∧ passes 0 0 o} := by
  rw [pos_iff_ne_zero]
  intro h0
  exact h (C107_complete hF hc (ae_iff.mpr h0))

/-- ... whereas with an array as argument the test only looks at the images of that array: every function that maps zero to zero passes it on an array of zeros. -/
theorem C107_zeros {fn : List (IArr ℝ) → Except PyErr (IArr ℝ)} {ins out : Irreps} {F : Vecs [ins] → Fin out.dim → ℝ} (hF : Computes fn [ins] out F) (h0 : F 0 = 0)
    (u : ℝ × ℝ × ℝ) (x : IArr ℝ) (hx : x.Coherent) (hi : x.irreps = ins) (ha : x.array = List.ofFn fun _ : Fin ins.dim => (0 : ℝ)) :
    ∃ o, equivarianceTest fn u [] [.array x] = .ok o ∧ passes 0 0 o := by
  have hv : Holds [ins] 0 [x] := ⟨rfl, fun k => by
    match k with
    | ⟨0, _⟩ => exact ⟨hx, hi, ha⟩⟩
  obtain ⟨targs, out1, y, out2, h1, h2, h3, h4, h5, h6, h7⟩ := commute_coord hF hv (-randMatrix u)
  refine ⟨(out1, out2), ?_, ?_⟩
  · unfold equivarianceTest
    simp only [newArgs, bind, Except.bind, pure, Except.pure, h1, h2, h3, h4]
  · have e1 : (fun k => Dm ([ins].get k) (-randMatrix u) *ᵥ (0 : Vecs [ins]) k) = 0 := by
      funext k
      exact Matrix.mulVec_zero _
    rw [e1, h0] at h6
    rw [h0, Matrix.mulVec_zero] at h7
    unfold passes
    simp only [h5, h6, h7, true_and]
    intro j _
    simp

/-- The hypotheses are met: by the identity of a vector, which is equivariant, and by a constant vector, which is not and so is detected. -/
theorem C107_concrete :
    (∃ F : Vecs [[⟨1, ⟨1, .o⟩⟩]] → Fin (Irreps.dim [⟨1, ⟨1, .o⟩⟩]) → ℝ, Continuous F ∧
      Computes (fun args => match args with | [x] => .ok x | _ => .error .valueError) [[⟨1, ⟨1, .o⟩⟩]] [⟨1, ⟨1, .o⟩⟩] F ∧
      Equivariant (fun args => match args with | [x] => .ok x | _ => .error .valueError) [[⟨1, ⟨1, .o⟩⟩]]) ∧
    (∃ F : Vecs [[⟨1, ⟨1, .o⟩⟩]] → Fin (Irreps.dim [⟨1, ⟨1, .o⟩⟩]) → ℝ, Continuous F ∧
      Computes (fun _ => ofArray [⟨1, ⟨1, .o⟩⟩] [1, 0, 0]) [[⟨1, ⟨1, .o⟩⟩]] [⟨1, ⟨1, .o⟩⟩] F ∧
      ¬ Equivariant (fun _ => ofArray [⟨1, ⟨1, .o⟩⟩] [1, 0, 0]) [[⟨1, ⟨1, .o⟩⟩]]) := by
  refine ⟨⟨fun v => v 0, continuous_apply (0 : Fin 1), ?_, ?_⟩, ⟨fun _ => ![1, 0, 0], continuous_const, ?_, ?_⟩⟩
  · intro v args h
    obtain ⟨x, rfl⟩ := List.length_eq_one_iff.mp h.length
    obtain ⟨h1, h2, h3⟩ := h.args 0
    exact ⟨x, rfl, h1, h2, h3⟩
  · intro R _ v args h
    obtain ⟨x, rfl⟩ := List.length_eq_one_iff.mp h.length
    obtain ⟨h1, h2, h3⟩ := h.args 0
    obtain ⟨y, y1, -⟩ := trans_array R h1 h2 h3
    have y1 : x.transformByMatrix R = .ok y := y1
    refine ⟨[y], y, x, y, ?_, rfl, rfl, y1, rfl, List.forall₂_same.mpr fun _ _ => rfl⟩
    rw [List.mapM_cons, y1]; rfl
  · intro v args _
    obtain ⟨x, h1, h2, h3, h4⟩ := of_vec [⟨1, ⟨1, .o⟩⟩] ![(1 : ℝ), 0, 0]
    exact ⟨x, h1, h2, h3, h4⟩
  · intro h
    obtain ⟨args, -, a2⟩ := newArgs_ok [[⟨1, ⟨1, .o⟩⟩]] 0
    obtain ⟨targs, out1, y, out2, -, h2, h3, h4, -, h6⟩ := h (-1) (by simp) 0 args a2
    obtain ⟨x, x1, x2, x3, x4⟩ := of_vec [⟨1, ⟨1, .o⟩⟩] ![(1 : ℝ), 0, 0]
    have e : ofArray [⟨1, ⟨1, .o⟩⟩] [(1 : ℝ), 0, 0] = .ok x := x1
    rw [e] at h2 h3
    cases h2; cases h3
    obtain ⟨z, z1, -, -, z4⟩ := trans_array (-1) x2 x3 x4
    rw [h4] at z1; cases z1
    have hx : out1.array = out2.array := List.forall₂_eq_eq_eq ▸ h6
    rw [x4, z4] at hx
    have hv := List.ofFn_injective hx
    have h0 := congrFun hv (0 : Fin 3)
    have hd : ∀ b : Fin 3, Dm [⟨1, ⟨1, .o⟩⟩] (-1) (0 : Fin 3) b = (-1 : Matrix (Fin 3) (Fin 3) ℝ) 0 b := by
      intro b
      have hw : Wig.dMatrix ⟨1, .o⟩ (-1) = (-1 : Matrix (Fin 3) (Fin 3) ℝ) := (C39_defining (orth_neg isRotation_one)).1
      have e2 : Dm [⟨1, ⟨1, .o⟩⟩] (-1) (0 : Fin 3) b = RTP.entry (matRows (Wig.dMatrix ⟨1, .o⟩ (-1))) (0 : Fin 3) b := by
        simp only [Dm, RTP.dMatrix_blockDiag]
        have : expand [⟨1, ⟨1, .o⟩⟩] = [⟨1, .o⟩] := rfl
        rw [this, List.map_cons, RTP.entry_blockDiag]
        · simp [matRows]
        · intro r hr
          simp only [matRows, List.mem_ofFn] at hr
          obtain ⟨k, rfl⟩ := hr
          simp [matRows]
      rw [e2, hw]
      exact RTP.entry_matRows (-1 : Matrix (Fin 3) (Fin 3) ℝ) 0 b
    have h1 : (Dm [⟨1, ⟨1, .o⟩⟩] (-1) *ᵥ ![(1 : ℝ), 0, 0]) (0 : Fin 3) = ∑ b : Fin 3, Dm [⟨1, ⟨1, .o⟩⟩] (-1) (0 : Fin 3) b * ![(1 : ℝ), 0, 0] b := rfl
    rw [h1, Fin.sum_univ_three] at h0
    have h2 : (1 : ℝ) = (-1 : Matrix (Fin 3) (Fin 3) ℝ) 0 0 * 1 + (-1 : Matrix (Fin 3) (Fin 3) ℝ) 0 1 * 0 + (-1 : Matrix (Fin 3) (Fin 3) ℝ) 0 2 * 0 := by
      rw [← hd 0, ← hd 1, ← hd 2]
      exact h0
    simp at h2
    norm_num at h2

end E3nn.EqTest

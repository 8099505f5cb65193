import Verif.Lemmas.Linear

namespace E3nn
open IArr

namespace FLin

variable {K : Type} [CommRing K]

/-- Sum of two vectors. -/
abbrev vadd (x y : List K) : List K := List.zipWith (· + ·) x y

theorem vadd_zero_right (n : Nat) (x : List K) (h : x.length = n) : vadd x (List.replicate n 0) = x := by
  induction x generalizing n with
  | nil => subst h; rfl
  | cons a x ih =>
    cases n with
    | zero => simp at h
    | succ n => simp only [vadd, List.replicate_succ, List.zipWith_cons_cons, add_zero] at *; rw [ih n (by simpa using h)]

theorem vadd_comm (x y : List K) : vadd x y = vadd y x := by
  unfold vadd; rw [List.zipWith_comm]; congr; funext a b; exact add_comm _ _

theorem vadd_zero_left (n : Nat) (x : List K) (h : x.length = n) : vadd (List.replicate n 0) x = x := by
  rw [vadd_comm, vadd_zero_right n x h]

theorem vadd_assoc (x y z : List K) : vadd (vadd x y) z = vadd x (vadd y z) := by
  induction x generalizing y z with
  | nil => rfl
  | cons a x ih =>
    cases y with
    | nil => rfl
    | cons b y =>
      cases z with
      | nil => rfl
      | cons c z => simp only [vadd, List.zipWith_cons_cons, add_assoc] at *; rw [ih]

theorem vadd_append {x y x' y' : List K} (h : x.length = y.length) :
    vadd (x ++ x') (y ++ y') = vadd x y ++ vadd x' y' := List.zipWith_append h

theorem vadd4 (a b c d : List K) : vadd (vadd a b) (vadd c d) = vadd (vadd a c) (vadd b d) := by
  rw [vadd_assoc, vadd_assoc, ← vadd_assoc b, vadd_comm b c, vadd_assoc c]

theorem vadd_map (c : K) (x y : List K) : vadd (x.map (c * ·)) (y.map (c * ·)) = (vadd x y).map (c * ·) := by
  induction x generalizing y with
  | nil => rfl
  | cons a x ih =>
    cases y with
    | nil => rfl
    | cons b y => simp only [vadd, List.map_cons, List.zipWith_cons_cons] at *; rw [ih, mul_add]

theorem linComb_zero (d n : Nat) (x : List K) : linComb d x (List.replicate n (List.replicate d 0)) = List.replicate d 0 := by
  induction x generalizing n with
  | nil => rfl
  | cons a x ih =>
    cases n with
    | zero => rfl
    | succ n =>
      simp only [List.replicate_succ, linComb, ih]
      simp only [List.map_replicate, mul_zero]
      exact vadd_zero_right d _ (by simp)

theorem linComb_zeros_left (d n : Nat) (A : List (List K)) (hA : ∀ r ∈ A, r.length = d) :
    linComb d (List.replicate n 0) A = List.replicate d 0 := by
  induction A generalizing n with
  | nil => cases n <;> rfl
  | cons r A ih =>
    cases n with
    | zero => rfl
    | succ n =>
      simp only [List.replicate_succ, linComb, zero_mul]
      rw [ih n (fun r hr => hA r (by simp [hr]))]
      have : r.map (fun _ => (0 : K)) = List.replicate d 0 := by rw [List.map_const', hA r (by simp)]
      rw [this]
      exact vadd_zero_right d _ (by simp)

theorem linComb_add (d : Nat) (x : List K) (A B : List (List K)) (h : A.length = B.length)
    (hA : ∀ r ∈ A, r.length = d) (hB : ∀ r ∈ B, r.length = d) :
    linComb d x (List.zipWith (List.zipWith (· + ·)) A B) = vadd (linComb d x A) (linComb d x B) := by
  induction x generalizing A B with
  | nil => simp only [linComb]; exact (vadd_zero_right d _ (by simp)).symm
  | cons a x ih =>
    cases A with
    | nil =>
      cases B with
      | nil => simp only [List.zipWith_nil_left, linComb]; exact (vadd_zero_right d _ (by simp)).symm
      | cons _ _ => simp at h
    | cons r A =>
      cases B with
      | nil => simp at h
      | cons s B =>
        simp only [List.zipWith_cons_cons, linComb]
        rw [ih A B (by simpa using h) (fun r hr => hA r (by simp [hr])) (fun r hr => hB r (by simp [hr]))]
        have := vadd_map a r s
        rw [← this]
        exact vadd4 _ _ _ _

theorem linComb_append (d : Nat) (x : List K) (A B : List (List K))
    (hA : ∀ r ∈ A, r.length = d) (hB : ∀ r ∈ B, r.length = d) :
    linComb d x (A ++ B) = vadd (linComb d (x.take A.length) A) (linComb d (x.drop A.length) B) := by
  induction A generalizing x with
  | nil =>
    simp only [List.nil_append, List.length_nil, List.take_zero, linComb, List.drop_zero]
    exact (vadd_zero_left d _ (linComb_length _ _ _ hB)).symm
  | cons r A ih =>
    cases x with
    | nil => simp only [List.cons_append, linComb, List.take_nil, List.drop_nil]; exact (vadd_zero_right d _ (by simp)).symm
    | cons a x =>
      simp only [List.cons_append, linComb, List.length_cons, List.take_succ_cons, List.drop_succ_cons]
      rw [ih x (fun r hr => hA r (by simp [hr]))]
      exact (vadd_assoc _ _ _).symm

theorem linComb_pad (n c e : Nat) (hce : c + e ≤ n) (x : List K) (B : List (List K)) (hB : ∀ r ∈ B, r.length = e) :
    linComb n x (B.map fun row : List K => List.replicate c (0 : K) ++ row ++ List.replicate (n - c - row.length) 0) =
      List.replicate c 0 ++ linComb e x B ++ List.replicate (n - c - e) 0 := by
  have hz : List.replicate n (0 : K) = List.replicate c 0 ++ List.replicate e 0 ++ List.replicate (n - c - e) 0 := by
    rw [List.replicate_append_replicate, List.replicate_append_replicate]; congr 1; omega
  induction x generalizing B with
  | nil => cases B <;> simp only [linComb, List.map_nil, List.map_cons] <;> exact hz
  | cons a x ih =>
    cases B with
    | nil => simp only [linComb, List.map_nil]; exact hz
    | cons r B =>
      have hr : r.length = e := hB r (by simp)
      have hB' : ∀ r ∈ B, r.length = e := fun r hr => hB r (by simp [hr])
      simp only [List.map_cons, linComb]
      rw [ih B hB']
      simp only [List.map_append, List.map_replicate, mul_zero]
      have l1 := linComb_length e x B hB'
      have := vadd_append (x := List.replicate c (0 : K) ++ r.map (a * ·)) (y := List.replicate c 0 ++ linComb e x B)
        (x' := List.replicate (n - c - r.length) 0) (y' := List.replicate (n - c - e) 0) (by simp [hr, l1])
      unfold vadd at this
      rw [this]
      have h2 := vadd_append (x := List.replicate c (0 : K)) (y := List.replicate c 0) (x' := r.map (a * ·)) (y' := linComb e x B) rfl
      unfold vadd at h2
      rw [h2, hr]
      congr 1
      · congr 1
        exact vadd_zero_right c _ (by simp)
      · exact vadd_zero_right _ _ (by simp)

theorem addBlock_shape {out : List (List K)} {r c n : Nat} {B : List (List K)} {e : Nat}
    (ho : ∀ row ∈ out, row.length = n) (hB : ∀ row ∈ B, row.length = e) (hce : c + e ≤ n)
    (hr : r + B.length ≤ out.length) :
    (addBlock out r c n B).length = out.length ∧ ∀ row ∈ addBlock out r c n B, row.length = n := by
  have hl : (List.replicate r (List.replicate n (0 : K)) ++
      B.map (fun row : List K => List.replicate c (0 : K) ++ row ++ List.replicate (n - c - row.length) 0) ++
      List.replicate (out.length - r - B.length) (List.replicate n 0)).length = out.length := by
    simp; omega
  refine ⟨by unfold addBlock; rw [List.length_zipWith, hl]; simp, ?_⟩
  intro row hrow
  unfold addBlock at hrow
  obtain ⟨i, hi, rfl⟩ := List.getElem_of_mem hrow
  rw [List.getElem_zipWith, List.length_zipWith, ho _ (List.getElem_mem _)]
  have : ∀ q ∈ (List.replicate r (List.replicate n (0 : K)) ++
      B.map (fun row : List K => List.replicate c (0 : K) ++ row ++ List.replicate (n - c - row.length) 0) ++
      List.replicate (out.length - r - B.length) (List.replicate n 0)), q.length = n := by
    intro q hq
    simp only [List.mem_append, List.mem_map, List.mem_replicate] at hq
    rcases hq with (⟨-, rfl⟩ | ⟨b, hb, rfl⟩) | ⟨-, rfl⟩
    · simp
    · simp [hB b hb]; omega
    · simp
  rw [this _ (List.getElem_mem _)]; simp

theorem linComb_addBlock {out : List (List K)} {r c n : Nat} {B : List (List K)} {e : Nat} (x : List K)
    (ho : ∀ row ∈ out, row.length = n) (hB : ∀ row ∈ B, row.length = e) (hce : c + e ≤ n)
    (hr : r + B.length ≤ out.length) :
    linComb n x (addBlock out r c n B) = vadd (linComb n x out)
      (List.replicate c 0 ++ linComb e ((x.drop r).take B.length) B ++ List.replicate (n - c - e) 0) := by
  have hp : ∀ q ∈ B.map (fun row => List.replicate c (0 : K) ++ row ++ List.replicate (n - c - row.length) 0), q.length = n := by
    intro q hq
    obtain ⟨b, hb, rfl⟩ := List.mem_map.mp hq
    simp [hB b hb]; omega
  have hz : ∀ k, ∀ q ∈ List.replicate k (List.replicate n (0 : K)), q.length = n := by
    intro k q hq; rw [List.mem_replicate] at hq; rw [hq.2]; simp
  unfold addBlock
  rw [linComb_add _ _ _ _ (by simp; omega) ho]
  · rw [linComb_append _ _ _ _ _ (hz _), linComb_append _ _ _ _ (hz _) hp, linComb_zero, linComb_zero,
      linComb_pad n c e hce _ _ hB]
    · rw [vadd_zero_left, vadd_zero_right]
      · rw [List.length_append, List.length_replicate, List.length_map, List.drop_take]
        congr 5; omega
      · rw [List.length_append, List.length_append, linComb_length e _ B hB]; simp; omega
      · rw [List.length_append, List.length_append, linComb_length e _ B hB]; simp; omega
    · intro q hq; rw [List.mem_append] at hq
      rcases hq with hq | hq
      · exact hz _ q hq
      · exact hp q hq
  · intro q hq; simp only [List.mem_append] at hq
    rcases hq with (hq | hq) | hq
    · exact hz _ q hq
    · exact hp q hq
    · exact hz _ q hq

theorem linComb_scale (d : Nat) (c : K) (x : List K) (A : List (List K)) (hA : ∀ r ∈ A, r.length = d) :
    linComb d x (A.map fun row => row.map (c * ·)) = (linComb d x A).map (c * ·) := by
  induction x generalizing A with
  | nil => cases A <;> simp [linComb]
  | cons a x ih =>
    cases A with
    | nil => simp [linComb]
    | cons r A =>
      simp only [List.map_cons, linComb]
      rw [ih A (fun r hr => hA r (by simp [hr]))]
      have := vadd_map c (r.map (a * ·)) (linComb d x A)
      unfold vadd at this
      rw [← this]
      congr 1
      simp only [List.map_map]
      apply List.map_congr_left
      intro v _
      simp only [Function.comp]; ring

/-! ### The Kronecker block -/

theorem flatMap_vadd {γ : Type} (l : List γ) (f g : γ → List K) (h : ∀ a ∈ l, (f a).length = (g a).length) :
    l.flatMap (fun a => vadd (f a) (g a)) = vadd (l.flatMap f) (l.flatMap g) := by
  induction l with
  | nil => rfl
  | cons a l ih =>
    simp only [List.flatMap_cons]
    rw [ih fun b hb => h b (by simp [hb]), vadd_append (h a (by simp))]

theorem unit_comb (d : Nat) (v : K) (x : List K) (k : Nat) (h : x.length + k = d) :
    linComb d x ((List.range' k x.length).map fun i => (List.range d).map fun j => v * (if i = j then 1 else 0)) =
      List.replicate k 0 ++ x.map (v * ·) := by
  induction x generalizing k with
  | nil => simp at h; subst h; simp [linComb]
  | cons a x ih =>
    simp only [List.length_cons] at h
    simp only [List.length_cons, List.range'_succ, List.map_cons, linComb]
    rw [ih (k + 1) (by omega)]
    have e : ((List.range d).map fun j => v * (if k = j then (1 : K) else 0)).map (a * ·) =
        List.replicate k 0 ++ [v * a] ++ List.replicate (d - k - 1) 0 := by
      apply List.ext_getElem
      · simp; omega
      · intro i h1 h2
        simp only [List.getElem_map, List.getElem_range]
        rcases lt_trichotomy i k with hi | hi | hi
        · rw [if_neg (by omega), List.getElem_append_left (by simp; omega), List.getElem_append_left (by simpa using hi)]
          simp
        · subst hi
          rw [if_pos rfl, List.getElem_append_left (by simp), List.getElem_append_right (by simp)]
          simp [mul_comm]
        · rw [if_neg (by omega), List.getElem_append_right (by simp; omega)]
          simp
    rw [e]
    have e2 : List.replicate (k + 1) (0 : K) ++ x.map (v * ·) = (List.replicate k 0 ++ [0]) ++ x.map (v * ·) := by
      rw [List.replicate_succ']
    rw [e2]
    have := vadd_append (x := List.replicate k (0 : K) ++ [v * a]) (y := List.replicate k 0 ++ [0])
      (x' := List.replicate (d - k - 1) 0) (y' := x.map (v * ·)) (by simp)
    unfold vadd at this
    rw [this]
    have h2 := vadd_append (x := List.replicate k (0 : K)) (y := List.replicate k 0) (x' := [v * a]) (y' := [0]) rfl
    unfold vadd at h2
    rw [h2]
    have h3 := vadd_zero_left (d - k - 1) (x.map (v * ·)) (by simp; omega)
    have h4 := vadd_zero_right k (List.replicate k (0 : K)) (by simp)
    unfold vadd at h3 h4
    rw [h3, h4]
    simp

theorem unit_rows (d : Nat) (row : List K) (x : List K) (h : x.length = d) :
    linComb (row.length * d) x ((List.range d).map fun i =>
      row.flatMap fun v => (List.range d).map fun j => v * (if i = j then 1 else 0)) =
      row.flatMap fun v => x.map (v * ·) := by
  induction row with
  | nil =>
    simp only [List.length_nil, Nat.zero_mul, List.flatMap_nil]
    have : ((List.range d).map fun _ => ([] : List K)) = List.replicate d (List.replicate 0 0) := by simp
    rw [this, linComb_zero]; rfl
  | cons v row ih =>
    simp only [List.flatMap_cons, List.length_cons]
    rw [← ih]
    have hu := unit_comb d v x 0 (by omega)
    rw [h] at hu
    simp only [List.replicate_zero, List.nil_append] at hu
    rw [List.range'_eq_map_range] at hu
    simp only [Nat.zero_add, List.map_id'] at hu
    rw [← hu]
    have gen : ∀ (y : List K) (A B : List (List K)) (a b : Nat), A.length = B.length → (∀ r ∈ A, r.length = a) →
        (∀ r ∈ B, r.length = b) → linComb (a + b) y (List.zipWith (· ++ ·) A B) = linComb a y A ++ linComb b y B := by
      intro y
      induction y with
      | nil => intro A B a b _ _ _; simp [linComb]
      | cons c y ih =>
        intro A B a b hl hA hB
        cases A with
        | nil =>
          cases B with
          | nil => simp [linComb]
          | cons _ _ => simp at hl
        | cons r A =>
          cases B with
          | nil => simp at hl
          | cons s B =>
            simp only [List.zipWith_cons_cons, linComb]
            rw [ih A B a b (by simpa using hl) (fun r hr => hA r (by simp [hr])) (fun r hr => hB r (by simp [hr])),
              List.map_append]
            exact vadd_append (by rw [List.length_map, hA r (by simp), linComb_length _ _ _ fun r hr => hA r (by simp [hr])])
    have e : (row.length + 1) * d = d + row.length * d := by rw [Nat.succ_mul, Nat.add_comm]
    rw [e, ← gen]
    · congr 1
      rw [List.zipWith_map, List.zipWith_self]
    · simp
    · intro r hr; obtain ⟨i, _, rfl⟩ := List.mem_map.mp hr; simp
    · intro r hr; obtain ⟨i, _, rfl⟩ := List.mem_map.mp hr; simp

theorem kron_row_length (d : Nat) (W : List (List K)) (e : Nat) (hW : ∀ r ∈ W, r.length = e) :
    ∀ r ∈ kronEye d W, r.length = e * d := by
  intro r hr
  unfold kronEye at hr
  obtain ⟨row, h1, h2⟩ := List.mem_flatMap.mp hr
  obtain ⟨i, _, rfl⟩ := List.mem_map.mp h2
  simp [hW row h1]

theorem kron_length (d : Nat) (W : List (List K)) : (kronEye d W).length = W.length * d := by
  simp [kronEye]

theorem einsum_cons (mo d : Nat) (row x0 : List K) (W X : List (List K)) :
    (einsumUW mo d (row :: W) (x0 :: X)).flatten =
      (List.range mo).flatMap fun j => vadd (x0.map (row.getD j 0 * ·)) (linComb d (W.map fun r => r.getD j 0) X) := by
  simp only [einsumUW, List.map_cons, linComb, List.flatMap_def]

theorem kron_einsum (mo d : Nat) (W X : List (List K)) (hl : W.length = X.length) (hW : ∀ r ∈ W, r.length = mo)
    (hX : ∀ r ∈ X, r.length = d) :
    linComb (mo * d) X.flatten (kronEye d W) = (einsumUW mo d W X).flatten := by
  induction W generalizing X with
  | nil =>
    cases X with
    | nil =>
      simp only [List.flatten_nil, kronEye, List.flatMap_nil, linComb, einsumUW, List.map_nil]
      rw [List.map_const', List.length_range]
      induction mo with
      | zero => simp
      | succ n ih => rw [List.replicate_succ, List.flatten_cons, ← ih (by simp), List.replicate_append_replicate,
          Nat.succ_mul, Nat.add_comm]
    | cons _ _ => simp at hl
  | cons row W ih =>
    cases X with
    | nil => simp at hl
    | cons x0 X =>
      have hx0 : x0.length = d := hX x0 (by simp)
      have hX' : ∀ r ∈ X, r.length = d := fun r hr => hX r (by simp [hr])
      have hW' : ∀ r ∈ W, r.length = mo := fun r hr => hW r (by simp [hr])
      have hrow : row.length = mo := hW row (by simp)
      rw [einsum_cons, flatMap_vadd _ _ _ (by
        intro j _; rw [List.length_map, hx0, linComb_length _ _ _ hX'])]
      have ih' := ih X (by simpa using hl) hW' hX'
      have e1 : ((List.range mo).flatMap fun j => linComb d (W.map fun r => r.getD j 0) X) = (einsumUW mo d W X).flatten := by
        simp only [einsumUW, List.flatMap_def]
      rw [e1, ← ih']
      have e2 : ((List.range mo).flatMap fun j => x0.map (row.getD j 0 * ·)) = row.flatMap fun v => x0.map (v * ·) := by
        have : row = (List.range mo).map fun j => row.getD j 0 := by
          apply List.ext_getElem
          · simp [hrow]
          · intro i h1 h2; simp [List.getD, h1]
        conv => rhs; rw [this]
        rw [List.flatMap_map]
      rw [e2, ← unit_rows d row x0 hx0, hrow]
      have hk : kronEye d (row :: W) = ((List.range d).map fun i =>
          row.flatMap fun v => (List.range d).map fun j => v * (if i = j then 1 else 0)) ++ kronEye d W := by
        simp only [kronEye, List.flatMap_cons]
      rw [hk, linComb_append]
      · simp [hx0]
      · intro r hr; obtain ⟨i, _, rfl⟩ := List.mem_map.mp hr; simp [hrow]
      · exact kron_row_length d W mo hW'

/-! ### The array of the output as a sum over instructions -/

def arr (f : FLin K) (cs : List (Chunk K)) (L : List (LinIns K × List K)) : List K :=
  (f.irrepsOut.zipIdx.map fun mo => flatChunk mo.1
    (sumChunks ((L.filter fun iw => iw.1.iOut == mo.2).map (f.pathRows cs)))).flatten

theorem flatten_addRows {x y : List (List K)} {m : MulIrrep} (hx : shapeOk m (some x) = true)
    (hy : shapeOk m (some y) = true) : (addRows x y).flatten = vadd x.flatten y.flatten := by
  simp only [shapeOk, Bool.and_eq_true, beq_iff_eq, List.all_eq_true] at hx hy
  obtain ⟨hx1, hx2⟩ := hx
  obtain ⟨hy1, hy2⟩ := hy
  rw [← hx1] at hy1
  clear hx1
  induction x generalizing y with
  | nil => rfl
  | cons a x ih =>
    cases y with
    | nil => simp at hy1
    | cons b y =>
      have := ih (y := y) (fun r hr => hx2 r (by simp [hr])) (by simpa using hy1) (fun r hr => hy2 r (by simp [hr]))
      unfold addRows at *
      simp only [List.zipWith_cons_cons, List.flatten_cons]
      rw [this, vadd_append (by rw [hx2 a (by simp), hy2 b (by simp)])]

theorem flat_sumChunks_append {m : MulIrrep} {cs : List (Chunk K)} {c : Chunk K} (h : ∀ c ∈ cs, shapeOk m c = true)
    (hc : shapeOk m c = true) :
    flatChunk m (sumChunks (cs ++ [c])) = vadd (flatChunk m (sumChunks cs)) (flatChunk m c) := by
  have hs := sumChunks_shape h
  cases c with
  | none =>
    have : sumChunks (cs ++ [none]) = sumChunks cs := by simp [sumChunks]
    rw [this]
    exact (vadd_zero_right _ _ (flatChunk_length hs)).symm
  | some x =>
    unfold sumChunks at *
    rw [List.filterMap_append]
    generalize cs.filterMap id = l at hs
    cases l with
    | nil =>
      simp only [List.nil_append, List.filterMap_cons, id, List.filterMap_nil, List.foldl_nil]
      exact (vadd_zero_left _ _ (flatChunk_length hc)).symm
    | cons y l =>
      simp only [List.filterMap_cons, id, List.filterMap_nil, List.cons_append, List.foldl_append, List.foldl_cons,
        List.foldl_nil, flatChunk]
      exact flatten_addRows hs hc

theorem indicator_flatten (l : Irreps) (k o : Nat) (mo : MulIrrep) (p : List K) (ho : l[o]? = some mo) :
    ((l.zipIdx k).map fun q => if (k + o) = q.2 then p else List.replicate q.1.dim 0).flatten =
      List.replicate (Irreps.dim (l.take o)) 0 ++ p ++ List.replicate (Irreps.dim l - Irreps.dim (l.take o) - mo.dim) 0 := by
  have zeros : ∀ (l : Irreps) (k : Nat) (j : Nat), j < k → ((l.zipIdx k).map fun q =>
      if j = q.2 then p else List.replicate q.1.dim 0).flatten = List.replicate (Irreps.dim l) 0 := by
    intro l
    induction l with
    | nil => intro k j _; rfl
    | cons m l ih =>
      intro k j hj
      simp only [List.zipIdx_cons, List.map_cons, List.flatten_cons]
      rw [ih (k + 1) j (by omega), if_neg (by omega), List.replicate_append_replicate]; rfl
  have hd : ∀ (m : MulIrrep) (l : Irreps), Irreps.dim (m :: l) = m.dim + Irreps.dim l := fun _ _ => rfl
  induction l generalizing k o with
  | nil => simp at ho
  | cons m l ih =>
    cases o with
    | zero =>
      simp only [List.getElem?_cons_zero, Option.some.injEq] at ho
      subst ho
      simp only [List.zipIdx_cons, List.map_cons, List.flatten_cons]
      rw [zeros l (k + 1) (k + 0) (by omega), if_pos (by omega), hd]
      have : Irreps.dim (List.take 0 (m :: l)) = 0 := rfl
      rw [this]
      simp
    | succ o =>
      simp only [List.getElem?_cons_succ] at ho
      have := ih (k + 1) o ho
      simp only [List.zipIdx_cons, List.map_cons, List.flatten_cons]
      rw [if_neg (by omega)]
      have e : k + (o + 1) = k + 1 + o := by omega
      rw [e, this, List.take_succ_cons, hd, hd, List.append_assoc, ← List.append_assoc (List.replicate m.dim 0),
        List.replicate_append_replicate, List.append_assoc]
      congr 3
      omega

theorem arr_append {f : FLin K} (cs : List (Chunk K)) (L : List (LinIns K × List K)) (iw : LinIns K × List K)
    (hL : ∀ q ∈ L ++ [iw], ∃ mo, f.irrepsOut[q.1.iOut]? = some mo ∧ shapeOk mo (f.pathRows cs q) = true)
    {mo : MulIrrep} (ho : f.irrepsOut[iw.1.iOut]? = some mo) :
    arr f cs (L ++ [iw]) = vadd (arr f cs L)
      (List.replicate (Irreps.dim (f.irrepsOut.take iw.1.iOut)) 0 ++ flatChunk mo (f.pathRows cs iw) ++
        List.replicate (Irreps.dim f.irrepsOut - Irreps.dim (f.irrepsOut.take iw.1.iOut) - mo.dim) 0) := by
  have hsh : ∀ (m : MulIrrep) (o : Nat), f.irrepsOut[o]? = some m → ∀ iw' ∈ L ++ [iw], (iw'.1.iOut == o) = true →
      shapeOk m (f.pathRows cs iw') = true := by
    intro m o hm iw' h1 h2
    obtain ⟨mo', k1, k2⟩ := hL iw' h1
    rw [beq_iff_eq.mp h2, hm] at k1; cases k1; exact k2
  rw [← indicator_flatten f.irrepsOut 0 iw.1.iOut mo _ ho]
  simp only [arr, ← List.flatMap_def, Nat.zero_add]
  rw [← flatMap_vadd]
  · apply List.flatMap_congr
    rintro ⟨m, o⟩ hmo
    have hm := List.mk_mem_zipIdx_iff_getElem?.mp hmo
    simp only [List.filter_append, List.map_append]
    by_cases h : iw.1.iOut = o
    · have hmm : m = mo := by rw [h, hm] at ho; exact (Option.some.inj ho)
      subst hmm
      simp only [List.filter_cons, h, beq_self_eq_true, if_true, List.filter_nil, List.map_cons, List.map_nil]
      rw [flat_sumChunks_append]
      · intro c hc
        obtain ⟨iw', h1, rfl⟩ := List.mem_map.mp hc
        rw [List.mem_filter] at h1
        exact hsh m o hm iw' (by simp [h1.1]) h1.2
      · exact hsh m o hm iw (by simp) (by simp [h])
    · have : (iw.1.iOut == o) = false := by simpa using h
      simp only [List.filter_cons, this, List.filter_nil, List.map_nil, List.append_nil, if_neg h, Bool.false_eq_true, if_false]
      symm
      apply vadd_zero_right
      apply flatChunk_length
      apply sumChunks_shape
      intro c hc
      obtain ⟨iw', h1, rfl⟩ := List.mem_map.mp hc
      rw [List.mem_filter] at h1
      exact hsh m o hm iw' (by simp [h1.1]) h1.2
  · rintro ⟨m, o⟩ hmo
    have hm := List.mk_mem_zipIdx_iff_getElem?.mp hmo
    rw [flatChunk_length]
    · split
      · rename_i h
        have hmm : m = mo := by
          simp only at h; rw [h, hm] at ho; exact (Option.some.inj ho)
        subst hmm
        exact (flatChunk_length (hsh m o hm iw (by simp) (by simp [h]))).symm
      · simp
    · apply sumChunks_shape
      intro c hc
      obtain ⟨iw', h1, rfl⟩ := List.mem_map.mp hc
      rw [List.mem_filter] at h1
      exact hsh m o hm iw' (by simp [h1.1]) h1.2

theorem arr_nil (f : FLin K) (cs : List (Chunk K)) : arr f cs [] = List.replicate f.irrepsOut.dim 0 := by
  have : ∀ (l : Irreps) (k : Nat), ((l.zipIdx k).map fun mo => flatChunk mo.1 (sumChunks
      ((([] : List (LinIns K × List K)).filter fun iw => iw.1.iOut == mo.2).map (f.pathRows cs)))).flatten =
      List.replicate (Irreps.dim l) 0 := by
    intro l
    induction l with
    | nil => intro k; rfl
    | cons m l ih =>
      intro k
      simp only [List.zipIdx_cons, List.map_cons, List.flatten_cons]
      rw [ih (k + 1)]
      simp only [List.filter_nil, List.map_nil, sumChunks, List.filterMap_nil, flatChunk]
      rw [List.replicate_append_replicate]; rfl
  exact this _ 0

/-! ### `matrix` -/

theorem slice_flat (ps : List (MulIrrep × Chunk K)) (hs : Shaped ps) (i : Nat) {p : MulIrrep × Chunk K}
    (hp : ps[i]? = some p) :
    (((ps.map fun p => flatChunk p.1 p.2).flatten).drop (Irreps.dim ((ps.map Prod.fst).take i))).take p.1.dim =
      flatChunk p.1 p.2 := by
  have hd : ∀ (m : MulIrrep) (l : Irreps), Irreps.dim (m :: l) = m.dim + Irreps.dim l := fun _ _ => rfl
  induction ps generalizing i with
  | nil => simp at hp
  | cons q ps ih =>
    have hq := flatChunk_length (hs q (by simp))
    cases i with
    | zero =>
      simp only [List.getElem?_cons_zero, Option.some.injEq] at hp
      subst hp
      have : Irreps.dim (List.take 0 (List.map Prod.fst (q :: ps))) = 0 := rfl
      rw [this, List.drop_zero, List.map_cons, List.flatten_cons, List.take_append_of_le_length (by omega),
        List.take_of_length_le (by omega)]
    | succ i =>
      simp only [List.getElem?_cons_succ] at hp
      simp only [List.map_cons, List.flatten_cons, List.take_succ_cons]
      rw [hd, ← hq, List.drop_append]
      rw [List.drop_eq_nil_of_le (by omega), List.nil_append, Nat.add_sub_cancel_left]
      exact ih (fun p hp => hs p (by simp [hp])) i hp

theorem dim_take_le (l : Irreps) {i : Nat} {m : MulIrrep} (h : l[i]? = some m) :
    Irreps.dim (l.take i) + m.dim ≤ Irreps.dim l := by
  have hd : ∀ (m : MulIrrep) (l : Irreps), Irreps.dim (m :: l) = m.dim + Irreps.dim l := fun _ _ => rfl
  induction l generalizing i with
  | nil => simp at h
  | cons a l ih =>
    cases i with
    | zero =>
      simp only [List.getElem?_cons_zero, Option.some.injEq] at h
      subst h
      have : Irreps.dim (List.take 0 (a :: l)) = 0 := rfl
      rw [this, hd]; omega
    | succ i =>
      simp only [List.getElem?_cons_succ] at h
      have := ih h
      rw [List.take_succ_cons, hd, hd]; omega

theorem matrix_spec {f : FLin K} (hf : Good f) (hb : ∀ ins ∈ f.instructions, ins.iIn ≠ none)
    {x : IArr K} (hx : Inv x) (hi : x.irreps = f.irrepsIn) {ws : List (List K)} (hw : WeightsOk f ws) :
    ∃ M, f.matrix ws = .ok M ∧ M.length = f.irrepsIn.dim ∧ (∀ row ∈ M, row.length = f.irrepsOut.dim) ∧
      linComb f.irrepsOut.dim x.array M = arr f x.chunks (f.instructions.zip ws) := by
  have gen : ∀ (L R : List (LinIns K × List K)) (out : List (List K)), L ++ R = f.instructions.zip ws →
      out.length = f.irrepsIn.dim → (∀ row ∈ out, row.length = f.irrepsOut.dim) →
      linComb f.irrepsOut.dim x.array out = arr f x.chunks L →
      ∃ M, R.foldlM f.matrixStep out = .ok M ∧ M.length = f.irrepsIn.dim ∧ (∀ row ∈ M, row.length = f.irrepsOut.dim) ∧
        linComb f.irrepsOut.dim x.array M = arr f x.chunks (f.instructions.zip ws) := by
    intro L R
    induction R generalizing L with
    | nil =>
      intro out e h1 h2 h3
      rw [List.append_nil] at e; subst e
      exact ⟨out, rfl, h1, h2, h3⟩
    | cons iw R ih =>
      intro out e h1 h2 h3
      have hm : iw ∈ f.instructions.zip ws := by rw [← e]; simp
      obtain ⟨hm1, hm2⟩ := hw.mem hm
      obtain ⟨mo, ho, hins⟩ := hf _ hm1
      cases hin : iw.1.iIn with
      | none => exact absurd hin (hb _ hm1)
      | some i =>
        rw [hin] at hins
        obtain ⟨mi, k1, k2, k3⟩ := hins
        have hio := (List.getElem?_eq_some_iff.mp k1).1
        have hoo := (List.getElem?_eq_some_iff.mp ho).1
        have si := Irreps.slicesFrom_get 0 f.irrepsIn i hio
        have so := Irreps.slicesFrom_get 0 f.irrepsOut iw.1.iOut hoo
        have hW : ∀ r ∈ rows mi.mul mo.mul iw.2, r.length = mo.mul := rows_row_length _ _ _ (by
          rw [hm2]; simp [size, k3])
        have hBl : ∀ row ∈ (kronEye mi.ir.dim (rows mi.mul mo.mul iw.2)).map (fun row => row.map (iw.1.pathWeight * ·)),
            row.length = mo.dim := by
          intro row hrow
          obtain ⟨q, hq, rfl⟩ := List.mem_map.mp hrow
          rw [List.length_map, kron_row_length _ _ _ hW q hq, k2]; rfl
        have hBn : ((kronEye mi.ir.dim (rows mi.mul mo.mul iw.2)).map (fun row => row.map (iw.1.pathWeight * ·))).length = mi.dim := by
          rw [List.length_map, kron_length, rows_length]; rfl
        have c1 := dim_take_le _ ho
        have c2 := dim_take_le _ k1
        rw [← h1, ← hBn] at c2
        obtain ⟨s1, s2⟩ := addBlock_shape h2 hBl c1 c2
        have key := linComb_addBlock x.array h2 hBl c1 c2
        have hpr : flatChunk mo (f.pathRows x.chunks iw) =
            linComb mo.dim ((x.array.drop (Irreps.dim (f.irrepsIn.take i))).take mi.dim)
              ((kronEye mi.ir.dim (rows mi.mul mo.mul iw.2)).map (fun row => row.map (iw.1.pathWeight * ·))) := by
          have hz := zip_get hx (i := i) (by rw [hi]; exact hio)
          have hsl := slice_flat _ hx.pairs.1 i hz
          rw [hx.pairs.2.1, hx.pairs.2.2.2.2.2] at hsl
          have hmi : x.irreps[i]'(by rw [hi]; exact hio) = mi := by
            have e : x.irreps[i]? = some mi := by rw [hi]; exact k1
            exact Option.some.inj ((List.getElem?_eq_getElem (by rw [hi]; exact hio)).symm.trans e)
          have hsh := hx.pairs.1 _ (List.mem_of_getElem? hz)
          rw [hmi] at hsl hsh
          rw [hi] at hsl
          have hcd : x.chunks.getD i none = chunkAt x i := by
            simp [List.getD, (List.getElem?_zip_eq_some.mp hz).2]
          have ho' : f.irrepsOut.getD iw.1.iOut ⟨0, ⟨0, .e⟩⟩ = mo := by simp [List.getD, ho]
          have hi' : f.irrepsIn.getD i ⟨0, ⟨0, .e⟩⟩ = mi := by simp [List.getD, k1]
          rw [hsl]
          simp only [pathRows, hin, ho', hi', hcd]
          generalize chunkAt x i = c at hsh
          cases c with
          | none =>
            simp only [Option.map_none, flatChunk]
            rw [linComb_zeros_left _ _ _ hBl]
          | some X =>
            simp only [shapeOk, Bool.and_eq_true, beq_iff_eq, List.all_eq_true] at hsh
            have hke := kron_einsum mo.mul mi.ir.dim (rows mi.mul mo.mul iw.2) X (by rw [rows_length, hsh.1]) hW hsh.2
            have hdd : mo.dim = mo.mul * mi.ir.dim := by rw [k2]; rfl
            simp only [Option.map_some, flatChunk]
            rw [hdd, linComb_scale _ _ _ _ (kron_row_length _ _ _ hW), hke, List.map_flatten]
        rw [hBn] at key
        rw [← hpr] at key
        rw [List.foldlM_cons]
        have step : f.matrixStep out iw = .ok (addBlock out (Irreps.dim (f.irrepsIn.take i)) (Irreps.dim (f.irrepsOut.take iw.1.iOut))
            f.irrepsOut.dim ((kronEye mi.ir.dim (IArr.rows mi.mul mo.mul iw.2)).map fun row => row.map (iw.1.pathWeight * ·))) := by
          unfold matrixStep Irreps.slices
          simp only [hin, k3, k1, ho, si, so, Nat.zero_add]
          rw [if_neg (by rw [k2]; simp)]
        rw [step]
        refine ih (L ++ [iw]) _ (by rw [← e]; simp) (by rw [s1, h1]) s2 ?_
        rw [key, h3]
        symm
        apply arr_append _ _ _ _ ho
        intro iw' hiw'
        exact (path_spec hf hx hi hw (iw := iw') (by
          rw [← e]
          simp only [List.mem_append, List.mem_singleton, List.mem_cons] at hiw' ⊢
          tauto)).2
  refine gen [] (f.instructions.zip ws) _ rfl (by simp) (by
    intro row hrow; rw [List.mem_replicate] at hrow; rw [hrow.2]; simp) ?_
  rw [linComb_zero, arr_nil]

theorem linComb_get (d : Nat) (x : List K) (A : List (List K)) (hA : ∀ r ∈ A, r.length = d) :
    linComb d x A = (List.range d).map fun j => (List.zipWith (fun a row => a * row.getD j 0) x A).sum := by
  induction x generalizing A with
  | nil => cases A <;> simp [linComb]
  | cons a x ih =>
    cases A with
    | nil => simp [linComb]
    | cons r A =>
      simp only [linComb, List.zipWith_cons_cons, List.sum_cons]
      rw [ih A fun r hr => hA r (by simp [hr])]
      apply List.ext_getElem
      · simp [hA r (by simp)]
      · intro i h1 h2
        simp [List.getD, List.getElem?_eq_getElem (l := r) (i := i) (by simp at h2; rw [hA r (by simp)]; exact h2)]

theorem outPairs_arr (f : FLin K) (cs : List (Chunk K)) (ws : List (List K)) :
    ((outPairs f cs ws).map fun p => flatChunk p.1 p.2).flatten = arr f cs (f.instructions.zip ws) := by
  simp only [outPairs, arr, List.map_map]; rfl

end FLin
end E3nn

import Verif.Model.SymTP
import Verif.Spec.SymTP
import Verif.Lemmas.RTPFlat
import Verif.Lemmas.RTPOps
import Verif.Props.C04_C11

/-! # The loops of `SymmetricTensorProduct` -/

namespace E3nn.SymTP

open E3nn.RTP E3nn.IArr E3nn.PermRepr Finset

variable {C : Type}

/-! ### contractions -/

/-- The vector `x` on axis `n`. -/
def lift (n : ℕ) (x : ℕ → ℝ) : Ten := fun σ => x (σ n)

theorem lift_on (n : ℕ) (x : ℕ → ℝ) : On [n] (lift n x) := fun σ τ h => by unfold lift; rw [h n (by simp)]

theorem contract_eq (n d : ℕ) (x : ℕ → ℝ) (t : Ten) : contract n d x t = axSum (fun _ => d) [n] (t * lift n x) := by
  funext σ
  rw [axSum_cons]
  simp [contract, axSum, onAxes, lift]

theorem contract_add (n d : ℕ) (x : ℕ → ℝ) (s t : Ten) : contract n d x (s + t) = contract n d x s + contract n d x t := by
  rw [contract_eq, contract_eq, contract_eq, add_mul, axSum_add]

theorem contract_sum (n d : ℕ) (x : ℕ → ℝ) {κ : Type} (s : Finset κ) (t : κ → Ten) : contract n d x (∑ k ∈ s, t k) = ∑ k ∈ s, contract n d x (t k) := by
  simp only [contract_eq]
  rw [Finset.sum_mul, axSum_sum]

/-- The product of the components on the axes `f`. -/
def pw (f : List ℕ) (x : ℕ → ℝ) : Ten := fun σ => (f.map fun n => x (σ n)).prod

theorem pw_nil (x : ℕ → ℝ) : pw [] x = 1 := rfl
theorem pw_cons (n : ℕ) (f : List ℕ) (x : ℕ → ℝ) : pw (n :: f) x = lift n x * pw f x := by
  funext σ; simp [pw, lift]

theorem pw_on (f : List ℕ) (x : ℕ → ℝ) : On f (pw f x) := fun σ τ h => by
  unfold pw
  congr 1
  apply List.map_congr_left
  intro n hn
  rw [h n hn]

/-- The axes `r, ..., s - 1` contracted. -/
noncomputable def part (d r s : ℕ) (x : ℕ → ℝ) (t : Ten) : Ten := axSum (fun _ => d) (List.range' r (s - r)) (t * pw (List.range' r (s - r)) x)

theorem part_self (d r : ℕ) (x : ℕ → ℝ) (t : Ten) : part d r r x t = t := by
  unfold part
  simp only [Nat.sub_self, List.range'_zero, pw_nil, mul_one]
  rfl

theorem part_contract {d r s : ℕ} (h : r < s) (x : ℕ → ℝ) (t : Ten) : contract r d x (part d (r + 1) s x t) = part d r s x t := by
  have e : List.range' r (s - r) = r :: List.range' (r + 1) (s - (r + 1)) := by
    rw [show s - r = (s - (r + 1)) + 1 by omega, List.range'_succ]
  rw [contract_eq]
  unfold part
  rw [e, show r :: List.range' (r + 1) (s - (r + 1)) = [r] ++ List.range' (r + 1) (s - (r + 1)) from rfl, axSum_append]
  congr 1
  rw [show [r] ++ List.range' (r + 1) (s - (r + 1)) = r :: List.range' (r + 1) (s - (r + 1)) from rfl, pw_cons]
  rw [← axSum_mul_left (fun _ => d) (g := [r]) (fun i hi => by rw [List.mem_range'_1] at hi; simp; omega) _ (lift_on r x)]
  congr 1
  ring

theorem part_zero (d r s : ℕ) (x : ℕ → ℝ) : part d r s x 0 = 0 := by
  unfold part; rw [zero_mul, axSum_zero]

theorem part_full {d s : ℕ} (x : ℕ → ℝ) {t : Ten} (ht : On (List.range s) t) (σ : ℕ → ℕ) : part d 0 s x t σ = polynomial d s t x := by
  unfold part polynomial
  have e1 : List.range' 0 (s - 0) = List.range s := by rw [Nat.sub_zero, List.range_eq_range']
  rw [e1]
  have hon : On (List.range (List.replicate s d).length) (t * pw (List.range s) x) := by
    rw [List.length_replicate]; exact ht.mul (pw_on _ _)
  have h := axSum_fullBase (List.replicate s d) (t * pw (List.range s) x) hon σ
  rw [List.length_replicate] at h
  have e2 : axSum (fun _ => d) (List.range s) (t * pw (List.range s) x) σ = axSum (fun i => (List.replicate s d).getD i 0) (List.range s) (t * pw (List.range s) x) σ := by
    have hc : ∀ f : List ℕ, (∀ i ∈ f, i < s) → ∀ u σ, axSum (fun _ => d) f u σ = axSum (fun i => (List.replicate s d).getD i 0) f u σ := by
      intro f hf u
      induction f with
      | nil => intro σ; rfl
      | cons i f ih =>
        intro σ
        rw [axSum_cons, axSum_cons, List.getD_replicate _ (hf i (by simp))]
        exact Finset.sum_congr rfl fun j _ => ih (fun k hk => hf k (by simp [hk])) _
    exact hc _ (fun i hi => List.mem_range.mp hi) _ _
  rw [e2, h]
  congr 1
  apply List.map_congr_left
  intro j hj
  have hl : j.length = s := by simpa using len_of_mem rfl hj
  have e3 : pw (List.range s) x (idx j) = (j.map x).prod := by
    unfold pw idx
    congr 1
    apply List.ext_getElem (by simp [hl])
    intro i h1 h2
    rw [List.getElem_map, List.getElem_map, List.getElem_range, List.getD_eq_getElem _ _ (by simpa using h2)]
  rw [Pi.mul_apply, e3]
  rfl

/-! ### the dictionary -/

theorem look_eq_none {out : Out C} {ir : Irrep} : look out ir = none ↔ ir ∉ out.map Prod.fst := by
  unfold look
  rw [Option.map_eq_none_iff, List.find?_eq_none]
  simp only [beq_iff_eq, List.mem_map, not_exists, not_and]

theorem look_append {out : Out C} {k : Irrep} {e : Entry C} (hk : look out k = none) (ir : Irrep) :
    look (out ++ [(k, e)]) ir = if k = ir then some e else look out ir := by
  unfold look at hk ⊢
  rw [List.find?_append]
  by_cases h : k = ir
  · subst h
    rw [Option.map_eq_none_iff] at hk
    rw [hk, if_pos rfl]
    simp
  · rw [if_neg h]
    have : List.find? (fun q : Irrep × Entry C => q.1 == ir) [(k, e)] = none := by simp [h]
    rw [this, Option.or_none]

theorem look_map (out : Out C) (f : Irrep × Entry C → Entry C) (ir : Irrep) :
    look (out.map fun p => (p.1, f p)) ir = (look out ir).map fun e => f (ir, e) := by
  unfold look
  rw [List.find?_map, Option.map_map, Option.map_map]
  induction out with
  | nil => rfl
  | cons p out ih =>
    rw [List.find?_cons, List.find?_cons]
    simp only [Function.comp_apply]
    by_cases h : p.1 = ir
    · have : (p.1 == ir) = true := by simpa using h
      simp only [this, Option.map_some, Function.comp_apply]
      rw [← h]
    · have : (p.1 == ir) = false := by simpa using h
      simp only [this]
      exact ih

/-- What the loop over the irreps adds. -/
noncomputable def added (order : ℕ) (w : Weights C) (q : MulIrrep × Chunk Ten) : List (C → Ten) := weighted (chunkRows q) q.1.ir.dim (w order q.1.ir)

theorem fold_spec (order : ℕ) (x : IArr (C → ℝ)) (w : Weights C) : ∀ (ps : List (MulIrrep × Chunk Ten)) (out : Out C), (ps.map fun p => p.1.ir).Nodup → (out.map Prod.fst).Nodup →
    (∀ p ∈ ps, ∀ e, look out p.1.ir = some e → e.1 = false) →
    ∃ out', ps.foldlM (addIrrep order x w) out = .ok out' ∧ (out'.map Prod.fst).Nodup ∧
      (∀ ir, (∀ p ∈ ps, p.1.ir ≠ ir) → look out' ir = look out ir) ∧
      ∀ p ∈ ps, look out' p.1.ir = some (match look out p.1.ir with
        | none => (true, (added order w p).map fun t c => contract (order - 1) x.irreps.dim (vec x c) (t c))
        | some e => (false, List.zipWith (· + ·) e.2 (added order w p))) := by
  intro ps
  induction ps with
  | nil => intro out _ hk _; exact ⟨out, rfl, hk, fun _ _ => rfl, by simp⟩
  | cons p ps ih =>
    intro out hn hk hs
    rw [List.map_cons, List.nodup_cons] at hn
    have hne : ∀ q ∈ ps, p.1.ir ≠ q.1.ir := fun q hq h => hn.1 (List.mem_map.mpr ⟨q, hq, h.symm⟩)
    obtain ⟨o1, a1, a2, a3, a4⟩ : ∃ o1, addIrrep order x w out p = .ok o1 ∧ (o1.map Prod.fst).Nodup ∧ (∀ ir, p.1.ir ≠ ir → look o1 ir = look out ir) ∧
        look o1 p.1.ir = some (match look out p.1.ir with
          | none => (true, (added order w p).map fun t c => contract (order - 1) x.irreps.dim (vec x c) (t c))
          | some e => (false, List.zipWith (· + ·) e.2 (added order w p))) := by
      unfold addIrrep
      cases hl : look out p.1.ir with
      | none =>
        refine ⟨_, rfl, ?_, ?_, ?_⟩
        · rw [List.map_append, List.map_cons, List.map_nil, List.nodup_append]
          refine ⟨hk, by simp, ?_⟩
          intro a ha b hb
          rw [List.mem_singleton] at hb
          intro hab
          refine look_eq_none.mp hl ?_
          rw [hab, hb] at ha
          exact ha
        · intro ir h; rw [look_append hl, if_neg h]
        · rw [look_append hl, if_pos rfl]; rfl
      | some e =>
        obtain ⟨b, v⟩ := e
        have hb : b = false := hs p (by simp) _ hl
        subst hb
        have e1 : (out.map fun q => if q.1 = p.1.ir then (q.1, q.2.1, List.zipWith (· + ·) q.2.2 (weighted (chunkRows p) p.1.ir.dim (w order p.1.ir))) else q) =
            out.map fun q => (q.1, (if q.1 = p.1.ir then (q.2.1, List.zipWith (· + ·) q.2.2 (added order w p)) else q.2 : Entry C)) := by
          apply List.map_congr_left
          intro q _
          unfold added
          split <;> rfl
        refine ⟨_, rfl, ?_, ?_, ?_⟩
        · rw [e1, List.map_map]; exact hk
        · intro ir h
          rw [e1, look_map]
          simp only [if_neg (fun h' : ir = p.1.ir => h h'.symm)]
          cases look out ir <;> rfl
        · rw [e1, look_map, hl]
          simp
    obtain ⟨o2, b1, b2, b3, b4⟩ := ih o1 hn.2 a2 (fun q hq e he => hs q (by simp [hq]) e (by rw [← a3 _ (hne q hq)]; exact he))
    refine ⟨o2, ?_, b2, ?_, ?_⟩
    · rw [List.foldlM_cons, a1]; exact b1
    · intro ir h
      rw [b3 ir fun q hq => h q (by simp [hq]), a3 ir (h p (by simp))]
    · intro q hq
      rcases List.mem_cons.mp hq with rfl | hq
      · rw [b3 _ fun r hr => (hne r hr).symm, a4]
      · rw [b4 q hq, a3 _ (hne q hq)]

/-! ### the loop over the orders -/

/-- What is known about the bases. -/
structure Bases (m : ℕ) (U : ℕ → Except PyErr (IArr Ten)) (B : ℕ → IArr Ten) : Prop where
  ok : ∀ r, 1 ≤ r → r ≤ m → U r = .ok (B r)
  inv : ∀ r, 1 ≤ r → r ≤ m → Inv (B r)
  distinct : ∀ r, 1 ≤ r → r ≤ m → ((B r).irreps.map MulIrrep.ir).Nodup

/-- The tensor with the weights of one order. -/
noncomputable def coef (B : ℕ → IArr Ten) (w : Weights C) (s : ℕ) (ir : Irrep) (i : ℕ) (c : C) : Ten :=
  ∑ k ∈ range (rowsOf (B s) ir).length, w s ir k c • (((rowsOf (B s) ir).length : ℝ)⁻¹ • ((rowsOf (B s) ir).getD k []).getD i 0)

/-- The value of `out[ir]` before order `r` is treated. -/
noncomputable def val (S : Finset ℕ) (B : ℕ → IArr Ten) (w : Weights C) (x : IArr (C → ℝ)) (r : ℕ) (ir : Irrep) (i : ℕ) (c : C) : Ten :=
  ∑ s ∈ S.filter (r < ·), part x.irreps.dim r s (vec x c) (coef B w s ir i c)

theorem rows_empty {B : IArr Ten} (hB : Inv B) {ir : Irrep} (h : ir ∉ B.irreps.map MulIrrep.ir) : rowsOf B ir = [] := by
  unfold rowsOf
  rw [List.map_eq_nil_iff, List.filter_eq_nil_iff]
  intro b hb
  rw [decide_eq_true_iff]
  rintro rfl
  have : b.1 ∈ B.blocks.map Prod.fst := List.mem_map_of_mem hb
  rw [blocks_irs] at this
  unfold expand at this
  obtain ⟨m, hm, h2⟩ := List.mem_flatMap.mp this
  exact h (List.mem_map.mpr ⟨m, hm, (List.eq_of_mem_replicate h2).symm⟩)

theorem chunkRows_eq {B : IArr Ten} (hB : Inv B) (hd : (B.irreps.map MulIrrep.ir).Nodup) {p : MulIrrep × Chunk Ten} (hp : p ∈ B.irreps.zip B.chunks) : chunkRows p = rowsOf B p.1.ir := by
  unfold rowsOf
  rw [← rotBasis_blocks hB]
  unfold rotBasis
  have hnd : ((B.irreps.zip B.chunks).map fun q => q.1.ir).Nodup := by
    have : (B.irreps.zip B.chunks).map (fun q => q.1.ir) = ((B.irreps.zip B.chunks).map Prod.fst).map MulIrrep.ir := by rw [List.map_map]; rfl
    rw [this, hB.pairs.2.1]
    exact hd
  generalize B.irreps.zip B.chunks = l at hp hnd
  induction l with
  | nil => simp at hp
  | cons q l ih =>
    rw [List.map_cons, List.nodup_cons] at hnd
    rw [List.filter_cons]
    rcases List.mem_cons.mp hp with rfl | hp
    · have : l.filter (fun r => decide (r.1.ir = p.1.ir)) = [] := by
        rw [List.filter_eq_nil_iff]
        intro r hr
        rw [decide_eq_true_iff]
        intro h
        exact hnd.1 (List.mem_map.mpr ⟨r, hr, h⟩)
      rw [if_pos (by simp), this]
      simp
    · have : q.1.ir ≠ p.1.ir := fun h => hnd.1 (List.mem_map.mpr ⟨p, hp, h.symm⟩)
      rw [if_neg (by simpa using this)]
      exact ih hp hnd.2

theorem coef_zero {B : ℕ → IArr Ten} {s : ℕ} (hB : Inv (B s)) {ir : Irrep} (h : ir ∉ (B s).irreps.map MulIrrep.ir) (w : Weights C) (i : ℕ) (c : C) : coef B w s ir i c = 0 := by
  unfold coef; rw [rows_empty hB h]; simp

theorem mem_zip_ir {B : IArr Ten} (hB : Inv B) {ir : Irrep} : (∃ p ∈ B.irreps.zip B.chunks, p.1.ir = ir) ↔ ir ∈ B.irreps.map MulIrrep.ir := by
  have e : (B.irreps.zip B.chunks).map Prod.fst = B.irreps := hB.pairs.2.1
  constructor
  · rintro ⟨p, hp, rfl⟩
    exact List.mem_map.mpr ⟨p.1, by rw [← e]; exact List.mem_map_of_mem hp, rfl⟩
  · intro h
    obtain ⟨m, hm, rfl⟩ := List.mem_map.mp h
    rw [← e] at hm
    obtain ⟨p, hp, rfl⟩ := List.mem_map.mp hm
    exact ⟨p, hp, rfl⟩

/-- The state before order `r`. -/
def State (orders : List ℕ) (B : ℕ → IArr Ten) (w : Weights C) (x : IArr (C → ℝ)) (r : ℕ) (out : Out C) : Prop :=
  (out.map Prod.fst).Nodup ∧ ∀ ir,
    ((∃ s ∈ orders, r < s ∧ ir ∈ (B s).irreps.map MulIrrep.ir) → look out ir = some (false, (List.range ir.dim).map fun i c => val orders.toFinset B w x r ir i c)) ∧
    ((¬ ∃ s ∈ orders, r < s ∧ ir ∈ (B s).irreps.map MulIrrep.ir) → look out ir = none)

theorem step_spec {orders : List ℕ} {U : ℕ → Except PyErr (IArr Ten)} {B : ℕ → IArr Ten} {m : ℕ} (hm : ∀ s ∈ orders, s ≤ m) (hB : Bases m U B) (w : Weights C) (x : IArr (C → ℝ)) {r : ℕ} (hr : r + 1 ≤ m)
    {out : Out C} (h : State orders B w x (r + 1) out) : ∃ out', step orders U w x out (r + 1) = .ok out' ∧ State orders B w x r out' := by
  obtain ⟨h1, h2⟩ := h
  have hu := hB.ok (r + 1) (by omega) hr
  have hi := hB.inv (r + 1) (by omega) hr
  have hd := hB.distinct (r + 1) (by omega) hr
  have hval : ∀ ir i c, val orders.toFinset B w x r ir i c =
      contract r x.irreps.dim (vec x c) (val orders.toFinset B w x (r + 1) ir i c + if r + 1 ∈ orders then coef B w (r + 1) ir i c else 0) := by
    intro ir i c
    unfold val
    rw [contract_add, contract_sum]
    have e1 : ∀ s ∈ orders.toFinset.filter (r + 1 < ·), contract r x.irreps.dim (vec x c) (part x.irreps.dim (r + 1) s (vec x c) (coef B w s ir i c)) = part x.irreps.dim r s (vec x c) (coef B w s ir i c) := by
      intro s hs
      exact part_contract (by have := (Finset.mem_filter.mp hs).2; omega) _ _
    rw [Finset.sum_congr rfl e1]
    by_cases ho : r + 1 ∈ orders
    · rw [if_pos ho]
      have e2 : orders.toFinset.filter (r < ·) = insert (r + 1) (orders.toFinset.filter (r + 1 < ·)) := by
        ext s
        simp only [Finset.mem_filter, List.mem_toFinset, Finset.mem_insert]
        constructor
        · rintro ⟨a, b⟩
          by_cases hs : s = r + 1
          · exact Or.inl hs
          · exact Or.inr ⟨a, by omega⟩
        · rintro (rfl | ⟨a, b⟩)
          · exact ⟨ho, by omega⟩
          · exact ⟨a, by omega⟩
      rw [e2, Finset.sum_insert (by simp), add_comm]
      congr 1
      rw [← part_contract (by omega), part_self]
    · rw [if_neg ho]
      have e2 : orders.toFinset.filter (r < ·) = orders.toFinset.filter (r + 1 < ·) := by
        ext s
        simp only [Finset.mem_filter, List.mem_toFinset]
        constructor
        · rintro ⟨a, b⟩
          refine ⟨a, ?_⟩
          by_contra hc
          exact ho (by rwa [show r + 1 = s by omega])
        · rintro ⟨a, b⟩; exact ⟨a, by omega⟩
      rw [e2]
      have : contract r x.irreps.dim (vec x c) 0 = 0 := by rw [contract_eq, zero_mul, axSum_zero]
      rw [this, add_zero]
  have hzero : ∀ ir, (¬ ∃ s ∈ orders, r + 1 < s ∧ ir ∈ (B s).irreps.map MulIrrep.ir) → ∀ i c, val orders.toFinset B w x (r + 1) ir i c = 0 := by
    intro ir hn i c
    unfold val
    refine Finset.sum_eq_zero fun s hs => ?_
    obtain ⟨a, b⟩ := Finset.mem_filter.mp hs
    rw [List.mem_toFinset] at a
    rw [coef_zero (hB.inv s (by omega) (hm s a)) fun h => hn ⟨s, a, b, h⟩, part_zero]
  -- the state after the first loop
  obtain ⟨o1, s1, s2, s3⟩ : ∃ o1, (if r + 1 ∈ orders then ((B (r + 1)).irreps.zip (B (r + 1)).chunks).foldlM (addIrrep (r + 1) x w) out else .ok out) = .ok o1 ∧ (o1.map Prod.fst).Nodup ∧
      ∀ ir, ((∃ s ∈ orders, r < s ∧ ir ∈ (B s).irreps.map MulIrrep.ir) → ∃ e, look o1 ir = some e ∧
          (if e.1 then e.2 else e.2.map fun t c => contract r x.irreps.dim (vec x c) (t c)) = (List.range ir.dim).map fun i c => val orders.toFinset B w x r ir i c) ∧
        ((¬ ∃ s ∈ orders, r < s ∧ ir ∈ (B s).irreps.map MulIrrep.ir) → look o1 ir = none) := by
    by_cases ho : r + 1 ∈ orders
    · rw [if_pos ho]
      have hnd : (((B (r + 1)).irreps.zip (B (r + 1)).chunks).map fun p => p.1.ir).Nodup := by
        have : ((B (r + 1)).irreps.zip (B (r + 1)).chunks).map (fun q => q.1.ir) = (((B (r + 1)).irreps.zip (B (r + 1)).chunks).map Prod.fst).map MulIrrep.ir := by rw [List.map_map]; rfl
        rw [this, hi.pairs.2.1]; exact hd
      obtain ⟨o1, f1, f2, f3, f4⟩ := fold_spec (r + 1) x w ((B (r + 1)).irreps.zip (B (r + 1)).chunks) out hnd h1 (fun p hp e he => by
        by_cases hex : ∃ s ∈ orders, r + 1 < s ∧ p.1.ir ∈ (B s).irreps.map MulIrrep.ir
        · rw [(h2 _).1 hex] at he
          cases he; rfl
        · rw [(h2 _).2 hex] at he; cases he)
      refine ⟨o1, f1, f2, fun ir => ?_⟩
      by_cases hir : ir ∈ (B (r + 1)).irreps.map MulIrrep.ir
      · obtain ⟨p, hp, rfl⟩ := (mem_zip_ir hi).mpr hir
        have hadd : added (r + 1) w p = (List.range p.1.ir.dim).map fun i c => coef B w (r + 1) p.1.ir i c := by
          unfold added weighted coef
          rw [chunkRows_eq hi hd hp]
        refine ⟨fun _ => ?_, fun hn => absurd ⟨r + 1, ho, by omega, hir⟩ hn⟩
        by_cases hex : ∃ s ∈ orders, r + 1 < s ∧ p.1.ir ∈ (B s).irreps.map MulIrrep.ir
        · refine ⟨_, f4 p hp, ?_⟩
          rw [(h2 _).1 hex, hadd]
          simp only [Bool.false_eq_true, if_false]
          rw [List.zipWith_map, List.zipWith_self, List.map_map]
          apply List.map_congr_left
          intro i _
          funext c
          simp only [Function.comp_apply]
          rw [hval, if_pos ho]
          rfl
        · refine ⟨_, f4 p hp, ?_⟩
          rw [(h2 _).2 hex, hadd]
          simp only [if_true, List.map_map]
          apply List.map_congr_left
          intro i _
          funext c
          simp only [Function.comp_apply, Nat.add_sub_cancel]
          rw [hval, if_pos ho, hzero _ hex, zero_add]
      · rw [f3 ir fun p hp h => hir ((mem_zip_ir hi).mp ⟨p, hp, h⟩)]
        have hiff : (∃ s ∈ orders, r < s ∧ ir ∈ (B s).irreps.map MulIrrep.ir) ↔ ∃ s ∈ orders, r + 1 < s ∧ ir ∈ (B s).irreps.map MulIrrep.ir := by
          constructor
          · rintro ⟨s, a, b, c⟩
            refine ⟨s, a, ?_, c⟩
            by_contra hc
            have : s = r + 1 := by omega
            subst this; exact hir c
          · rintro ⟨s, a, b, c⟩; exact ⟨s, a, by omega, c⟩
        rw [hiff]
        refine ⟨fun hex => ⟨_, (h2 ir).1 hex, ?_⟩, (h2 ir).2⟩
        simp only [Bool.false_eq_true, if_false, List.map_map]
        apply List.map_congr_left
        intro i _
        funext c
        simp only [Function.comp_apply]
        rw [hval, if_pos ho, coef_zero hi hir, add_zero]
    · rw [if_neg ho]
      refine ⟨out, rfl, h1, fun ir => ?_⟩
      have hiff : (∃ s ∈ orders, r < s ∧ ir ∈ (B s).irreps.map MulIrrep.ir) ↔ ∃ s ∈ orders, r + 1 < s ∧ ir ∈ (B s).irreps.map MulIrrep.ir := by
        constructor
        · rintro ⟨s, a, b, c⟩
          refine ⟨s, a, ?_, c⟩
          by_contra hc
          have : s = r + 1 := by omega
          subst this; exact ho a
        · rintro ⟨s, a, b, c⟩; exact ⟨s, a, by omega, c⟩
      rw [hiff]
      refine ⟨fun hex => ⟨_, (h2 ir).1 hex, ?_⟩, (h2 ir).2⟩
      simp only [Bool.false_eq_true, if_false, List.map_map]
      apply List.map_congr_left
      intro i _
      funext c
      simp only [Function.comp_apply]
      rw [hval, if_neg ho, add_zero]
  refine ⟨contractAll (r + 1) x o1, ?_, ?_, fun ir => ⟨fun hex => ?_, fun hn => ?_⟩⟩
  · unfold step
    rw [hu]
    refine Eq.trans (b := Except.bind (if r + 1 ∈ orders then ((B (r + 1)).irreps.zip (B (r + 1)).chunks).foldlM (addIrrep (r + 1) x w) out else .ok out) fun o => .ok (contractAll (r + 1) x o)) ?_ (by rw [s1]; rfl)
    by_cases ho : r + 1 ∈ orders
    · simp only [if_pos ho]; rfl
    · simp only [if_neg ho]; rfl
  · unfold contractAll; rw [List.map_map]; exact s2
  · obtain ⟨e, e1, e2⟩ := (s3 ir).1 hex
    unfold contractAll
    rw [look_map (f := fun p => (false, if p.2.1 then p.2.2 else p.2.2.map fun t c => contract (r + 1 - 1) x.irreps.dim (vec x c) (t c))), e1, Option.map_some]
    simp only [Nat.add_sub_cancel]
    rw [e2]
  · unfold contractAll
    rw [look_map (f := fun p => (false, if p.2.1 then p.2.2 else p.2.2.map fun t c => contract (r + 1 - 1) x.irreps.dim (vec x c) (t c))), (s3 ir).2 hn]
    rfl

theorem loop_spec {orders : List ℕ} {U : ℕ → Except PyErr (IArr Ten)} {B : ℕ → IArr Ten} {m : ℕ} (hm : ∀ s ∈ orders, s ≤ m) (hB : Bases m U B) (w : Weights C) (x : IArr (C → ℝ)) :
    ∀ r, r ≤ m → ∀ out, State orders B w x r out → ∃ out', ((List.range r).reverse.map (· + 1)).foldlM (step orders U w x) out = .ok out' ∧ State orders B w x 0 out' := by
  intro r
  induction r with
  | zero => intro _ out h; exact ⟨out, rfl, h⟩
  | succ r ih =>
    intro hr out h
    obtain ⟨o1, a1, a2⟩ := step_spec hm hB w x hr h
    obtain ⟨o2, b1, b2⟩ := ih (by omega) o1 a2
    refine ⟨o2, ?_, b2⟩
    rw [List.range_succ, List.reverse_append, List.reverse_singleton, List.singleton_append, List.map_cons, List.foldlM_cons, a1]
    exact b1

end E3nn.SymTP

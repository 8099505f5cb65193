import Verif.Model.AxisMove
import Verif.Spec.AxisMove
import Verif.Props.C112

/-!
# C122: `mul_to_axis` and `axis_to_mul` with any axis
-/

namespace E3nn.Shp

open E3nn.IArr

variable {α : Type} [Zero α]

theorem build_get (L : List ℕ) (mul d : ℕ) (g : List ℕ → ℕ → ℕ → α) {j e p : ℕ} (hj : j < mul) (he : e < d) (hp : p < L.prod) :
    at0 (((build L mul d g).getD j []).getD e 0) p = g (unflat L p) j e := by
  have h1 : (build L mul d g).getD j [] = (List.range d).map fun e => fun k : Fin L.prod => g (unflat L k) j e := by
    rw [List.getD_eq_getElem _ _ (by simpa [build] using hj)]
    simp [build]
  rw [h1, List.getD_eq_getElem _ _ (by simpa using he), at0_lt _ hp]
  simp

theorem build_chunks {n : List ℕ} {x : IArr (Fin n.prod → α)} (hx : Inv x) (L : List ℕ) (h : ℕ → ℕ)
    (g : MulIrrep → List (List (Fin n.prod → α)) → List ℕ → ℕ → ℕ → α) :
    ∃ v, fromChunks (x.irreps.map fun m => ⟨h m.mul, m.ir⟩)
        ((x.irreps.zip x.chunks).map fun q => q.2.map fun c => build L (h q.1.mul) q.1.ir.dim (g q.1 c)) = .ok v ∧ Inv v ∧
      v.irreps = (x.irreps.map fun m => ⟨h m.mul, m.ir⟩) ∧ v.zeroFlags = x.zeroFlags ∧
      v.chunks = (x.irreps.zip x.chunks).map fun q => q.2.map fun c => build L (h q.1.mul) q.1.ir.dim (g q.1 c) := by
  obtain ⟨p1, p2, p3, p4, p5, p6⟩ := hx.pairs
  set ps := x.irreps.zip x.chunks with hps
  let G : MulIrrep × Chunk (Fin n.prod → α) → MulIrrep × Chunk (Fin L.prod → α) :=
    fun q => (⟨h q.1.mul, q.1.ir⟩, q.2.map fun c => build L (h q.1.mul) q.1.ir.dim (g q.1 c))
  have hsh : Shaped (ps.map G) := by
    intro q hq
    obtain ⟨⟨m, c⟩, hp, rfl⟩ := List.mem_map.mp hq
    cases c with
    | none => rfl
    | some c => simp [G, shapeOk, build]
  obtain ⟨v, e1, e2, e3, -, -, e6, e7, -⟩ := fromChunks_pairs (ps.map G) hsh
  have hf : (ps.map G).map Prod.fst = x.irreps.map fun m => ⟨h m.mul, m.ir⟩ := by
    conv_rhs => rw [← p2]
    simp [List.map_map, G, Function.comp_def]
  have hs : (ps.map G).map Prod.snd = ps.map fun q => q.2.map fun c => build L (h q.1.mul) q.1.ir.dim (g q.1 c) := by
    simp [List.map_map, G, Function.comp_def]
  rw [hf, hs] at e1
  refine ⟨v, e1, e2, e3.trans hf, ?_, e7.trans hs⟩
  rw [e6, List.map_map, ← p5]
  apply List.map_congr_left
  rintro ⟨m, c⟩ _
  simp [G]

/-- The entries of the array made by `build_chunks`. -/
theorem build_entry {x : NArr α} {L : List ℕ} {h : ℕ → ℕ} {g : MulIrrep → List (List (Fin x.lead.prod → α)) → List ℕ → ℕ → ℕ → α}
    {v : IArr (Fin L.prod → α)} (hx : Inv x.val)
    (hv : v.chunks = (x.val.irreps.zip x.val.chunks).map fun q => q.2.map fun c => build L (h q.1.mul) q.1.ir.dim (g q.1 c))
    {t : ℕ} {m : MulIrrep} (hm : x.val.irreps[t]? = some m) {i : List ℕ} (hi : IsIdx L i) {j e : ℕ} (hj : j < h m.mul) (he : e < 2 * m.ir.l + 1)
    (i' : List ℕ) (j' : ℕ) (hg : ∀ c, g m c i j e = cell x.lead c i' j' e) :
    entry ⟨L, v⟩ t i j e = entry x t i' j' e := by
  have hcl : x.val.chunks.length = x.val.irreps.length := by
    rw [hx.chunks_eq]; exact comp_length hx.flags.lengths.2
  have ht : t < x.val.irreps.length := by
    rw [List.getElem?_eq_some_iff] at hm; exact hm.1
  have hc : x.val.chunks[t]? = some (x.val.chunks[t]'(by omega)) := List.getElem?_eq_getElem _
  have hz : (x.val.irreps.zip x.val.chunks)[t]? = some (m, x.val.chunks[t]'(by omega)) := by
    rw [List.getElem?_zip_eq_some]; exact ⟨hm, hc⟩
  unfold entry
  simp only
  rw [hv, List.getElem?_map, hz, hc]
  rcases hch : x.val.chunks[t]'(by omega) with _ | c
  · rfl
  · simp only [Option.map_some]
    rw [build_get L (h m.mul) m.ir.dim (g m c) hj he (flat_lt hi), unflat_flat hi, hg c]
    rfl

theorem mod_axis {axis : Int} {a N : ℕ} (ha : a < N) (h : axis = a ∨ axis = (a : Int) - N) : (axis % (N : Int)).toNat = a := by
  rcases h with h | h
  · subst h; rw [Int.emod_eq_of_lt (by omega) (by omega)]; simp
  · subst h
    have : ((a : Int) - N) = (a : Int) + (N : Int) * (-1) := by ring
    rw [this, Int.add_mul_emod_self_left, Int.emod_eq_of_lt (by omega) (by omega)]; simp

theorem getD_last {s : List ℕ} {a : ℕ} (ha : a < s.length) (h : s.eraseIdx a = s.dropLast) : s.getLastD 0 = s.getD a 0 := by
  have hne : s ≠ [] := by rintro rfl; simp at ha
  have h1 : s.sum = s.getD a 0 + s.dropLast.sum := by
    rw [← h, ← (List.getElem_cons_eraseIdx_perm ha).sum_eq, List.sum_cons, List.getD_eq_getElem _ _ ha]
  have h2 : s.sum = s.dropLast.sum + s.getLastD 0 := by
    conv_lhs => rw [← List.dropLast_append_getLast hne]
    rw [List.sum_append, List.getLastD_eq_getLast?, List.getLast?_eq_getLast_of_ne_nil hne]
    simp
  omega

theorem take_append3 {β : Type} (i u : List β) (n : ℕ) (h : i.length = n) : (i ++ u).take n = i := by subst h; simp

theorem getD_append_add {β : Type} (i u : List β) (n k : ℕ) (b : β) (h : i.length = n) : (i ++ u).getD (n + k) b = u.getD k b := by
  subst h
  rw [List.getD_append_right _ _ _ _ (by omega)]
  congr 1
  omega

/-- `axis_to_mul(axis)` when removing the axis leaves the same shape as removing the last leading axis (so for `axis=-2`, the default): the axis
is removed, all multiplicities are multiplied by its length, and copy `k * mul + j` of the result is copy `j` at position `k` of the axis. -/
theorem C122_axis_to_mul (x : NArr α) (hx : x.val.Coherent) (axis : Int) (a : ℕ) (ha : a < x.lead.length)
    (haxis : axis = a ∨ axis = (a : Int) - (x.lead.length + 1)) (hs : x.lead.eraseIdx a = x.lead.dropLast) :
    ∃ y, axisToMulAt x axis = .ok y ∧ y.val.Coherent ∧ y.lead = x.lead.eraseIdx a ∧
      y.val.irreps = x.val.irreps.map (fun m => ⟨x.lead.getD a 0 * m.mul, m.ir⟩) ∧ y.val.zeroFlags = x.val.zeroFlags ∧
      ∀ (t : ℕ) (m : MulIrrep), x.val.irreps[t]? = some m → ∀ i, IsIdx y.lead i → ∀ k j e, k < x.lead.getD a 0 → j < m.mul → e < 2 * m.ir.l + 1 →
        entry y t i (k * m.mul + j) e = entry x t (i.insertIdx a k) j e := by
  have hmod := mod_axis (N := x.lead.length + 1) (by omega) (haxis.imp id fun h => by rw [h]; push_cast; ring)
  have hlast := getD_last ha hs
  obtain ⟨v, v1, v2, v3, v4, v5⟩ := build_chunks hx.inv x.lead.dropLast (fun mul => x.lead.getLastD 0 * mul) (fun m c i j e =>
    let s := unflat (x.lead.eraseIdx a ++ [x.lead.getD a 0, m.mul, m.ir.dim])
      (flat (x.lead.dropLast ++ [x.lead.getLastD 0 * m.mul, m.ir.dim]) (i ++ [j, e]))
    cell x.lead c ((s.take x.lead.dropLast.length).insertIdx a (s.getD x.lead.dropLast.length 0)) (s.getD (x.lead.dropLast.length + 1) 0)
      (s.getD (x.lead.dropLast.length + 2) 0))
  refine ⟨⟨x.lead.dropLast, v⟩, ?_, v2.coherent, hs.symm, by rw [v3, hlast], v4, ?_⟩
  · unfold axisToMulAt
    simp only
    rw [if_neg (by omega), if_neg (by rcases haxis with h | h <;> rw [h] <;> push_cast <;> omega), hmod, if_neg (by omega), v1]
  · intro t m hm i hi k j e hk hj he
    have hn : x.lead.getLastD 0 = x.lead.getD a 0 := hlast
    have hJ : k * m.mul + j < x.lead.getLastD 0 * m.mul := by
      rw [hn]
      calc k * m.mul + j < (k + 1) * m.mul := by rw [Nat.succ_mul]; omega
        _ ≤ _ := Nat.mul_le_mul_right _ hk
    refine build_entry (L := x.lead.dropLast) (h := fun mul => x.lead.getLastD 0 * mul) (g := fun m c i j e =>
      let s := unflat (x.lead.eraseIdx a ++ [x.lead.getD a 0, m.mul, m.ir.dim])
        (flat (x.lead.dropLast ++ [x.lead.getLastD 0 * m.mul, m.ir.dim]) (i ++ [j, e]))
      cell x.lead c ((s.take x.lead.dropLast.length).insertIdx a (s.getD x.lead.dropLast.length 0)) (s.getD (x.lead.dropLast.length + 1) 0)
        (s.getD (x.lead.dropLast.length + 2) 0)) hx.inv v5 hm hi hJ he _ _ ?_
    intro c
    have hil : i.length = x.lead.dropLast.length := List.Forall₂.length_eq hi
    have hpos : unflat (x.lead.eraseIdx a ++ [x.lead.getD a 0, m.mul, m.ir.dim])
        (flat (x.lead.dropLast ++ [x.lead.getLastD 0 * m.mul, m.ir.dim]) (i ++ [k * m.mul + j, e])) = i ++ [k, j, e] := by
      have hidx : IsIdx (x.lead.dropLast ++ [x.lead.getD a 0, m.mul, m.ir.dim]) (i ++ [k, j, e]) :=
        isIdx_append hi (List.Forall₂.cons hk (List.Forall₂.cons hj (List.Forall₂.cons he List.Forall₂.nil)))
      rw [hs, ← unflat_flat hidx]
      congr 1
      rw [flat_append hi, flat_append hi, hn]
      simp [flat]
      ring
    simp only [hpos]
    rw [take_append3 _ _ _ hil, getD_append_add _ _ _ 1 _ hil, getD_append_add _ _ _ 2 _ hil]
    have := getD_append_add i [k, j, e] x.lead.dropLast.length 0 0 hil
    rw [Nat.add_zero] at this
    rw [this]
    rfl

theorem mulToAxisAt_eq (x : NArr α) (hx : x.val.Coherent) (f : ℕ) (hf : 0 < f) (hdiv : ∀ m ∈ x.val.irreps, f ∣ m.mul) (axis : Int) (a : ℕ)
    (ha : a ≤ x.lead.length) (haxis : axis = a ∨ axis = (a : Int) - (x.lead.length + 2)) (hs : x.lead.insertIdx a f = x.lead ++ [f]) :
    ∃ v, mulToAxisAt x f axis = .ok ⟨x.lead ++ [f], v⟩ ∧ Inv v ∧ v.irreps = (x.val.irreps.map fun m => ⟨m.mul / f, m.ir⟩) ∧
      v.zeroFlags = x.val.zeroFlags ∧
      v.chunks = (x.val.irreps.zip x.val.chunks).map fun q => q.2.map fun c => build (x.lead ++ [f]) (q.1.mul / f) q.1.ir.dim fun i j e =>
        let full := i ++ [j, e]
        let r := full.eraseIdx a
        cell x.lead c (r.take x.lead.length) (full.getD a 0 * (q.1.mul / f) + r.getD x.lead.length 0) (r.getD (x.lead.length + 1) 0) := by
  have hmod := mod_axis (N := x.lead.length + 1 + 1) (by omega) (haxis.imp id fun h => by rw [h]; push_cast; ring)
  obtain ⟨v, v1, v2, v3, v4, v5⟩ := build_chunks hx.inv (x.lead ++ [f]) (fun mul => mul / f) (fun m c i j e =>
    let full := i ++ [j, e]
    let r := full.eraseIdx a
    cell x.lead c (r.take x.lead.length) (full.getD a 0 * (m.mul / f) + r.getD x.lead.length 0) (r.getD (x.lead.length + 1) 0))
  refine ⟨v, ?_, v2, v3, v4, v5⟩
  unfold mulToAxisAt
  simp only
  rw [if_neg (by rcases haxis with h | h <;> rw [h] <;> push_cast <;> omega), hmod, if_neg (by omega), if_neg, if_neg]
  · rw [List.zip_map_left, List.map_map]
    simp only [Function.comp_def, Prod.map, id]
    rw [v1]
  · simp only [Bool.not_eq_true, List.any_eq_false, Bool.and_eq_true, bne_iff_ne, ne_eq, not_and, not_not]
    intro q _ _
    rw [insertIdx_append_left _ _ _ _ ha, hs]
    simp
  · simp only [Bool.not_eq_true', Bool.not_eq_false, List.all_eq_true, beq_iff_eq]
    intro m hm
    exact Nat.mod_eq_zero_of_dvd (hdiv m hm)

/-- `mul_to_axis(factor, axis)` when inserting the new axis gives the same shape as appending it (so for `axis=-2`, the default): the
multiplicities are divided by the factor, and copy `j` at position `k` of the new axis is copy `k * (mul / factor) + j` of the array. -/
theorem C122_mul_to_axis (x : NArr α) (hx : x.val.Coherent) (f : ℕ) (hf : 0 < f) (hdiv : ∀ m ∈ x.val.irreps, f ∣ m.mul) (axis : Int) (a : ℕ)
    (ha : a ≤ x.lead.length) (haxis : axis = a ∨ axis = (a : Int) - (x.lead.length + 2)) (hs : x.lead.insertIdx a f = x.lead ++ [f]) :
    ∃ y, mulToAxisAt x f axis = .ok y ∧ y.val.Coherent ∧ y.lead = x.lead.insertIdx a f ∧
      y.val.irreps = x.val.irreps.map (fun m => ⟨m.mul / f, m.ir⟩) ∧ y.val.zeroFlags = x.val.zeroFlags ∧
      ∀ (t : ℕ) (m : MulIrrep), x.val.irreps[t]? = some m → ∀ i, IsIdx x.lead i → ∀ k j e, k < f → j < m.mul / f → e < 2 * m.ir.l + 1 →
        entry y t (i.insertIdx a k) j e = entry x t i (k * (m.mul / f) + j) e := by
  obtain ⟨v, v1, v2, v3, v4, v5⟩ := mulToAxisAt_eq x hx f hf hdiv axis a ha haxis hs
  refine ⟨⟨x.lead ++ [f], v⟩, v1, v2.coherent, hs.symm, v3, v4, ?_⟩
  intro t m hm i hi k j e hk hj he
  have hil : i.length = x.lead.length := List.Forall₂.length_eq hi
  have hidx : IsIdx (x.lead ++ [f]) (i.insertIdx a k) := by
    rw [← hs]
    apply isIdx_insert
    · rw [List.length_insertIdx_of_le_length ha]; omega
    · rw [List.eraseIdx_insertIdx_self]; exact hi
    · rw [List.getD_eq_getElem?_getD, List.getElem?_insertIdx_self, if_pos ha]; simpa using hk
  refine build_entry (h := fun mul => mul / f) (g := fun m c i j e =>
    let full := i ++ [j, e]
    let r := full.eraseIdx a
    cell x.lead c (r.take x.lead.length) (full.getD a 0 * (m.mul / f) + r.getD x.lead.length 0) (r.getD (x.lead.length + 1) 0))
    hx.inv v5 hm hidx hj he _ _ ?_
  intro c
  have e1 : i.insertIdx a k ++ [j, e] = (i ++ [j, e]).insertIdx a k := (insertIdx_append_left _ _ _ _ (by omega)).symm
  have e2 : ((i ++ [j, e]).insertIdx a k).getD a 0 = k := by
    rw [List.getD_eq_getElem?_getD, List.getElem?_insertIdx_self, if_pos (by simp; omega)]; rfl
  simp only [e1, e2, List.eraseIdx_insertIdx_self]
  rw [take_append3 _ _ _ hil, getD_append_add _ _ _ 1 _ hil]
  have := getD_append_add i [j, e] x.lead.length 0 0 hil
  rw [Nat.add_zero] at this
  rw [this]
  rfl

/-- Any other place for the new axis is refused, as soon as one chunk is not `None`; so is an axis out of range. -/
theorem C122_mul_to_axis_refuse (x : NArr α) (hx : x.val.Coherent) (f : ℕ) (hf : 0 < f) (axis : Int) :
    (∀ a : ℕ, a ≤ x.lead.length → (axis = a ∨ axis = (a : Int) - (x.lead.length + 2)) → x.lead.insertIdx a f ≠ x.lead ++ [f] →
      (∃ b ∈ x.val.zeroFlags, b = false) → mulToAxisAt x f axis = .error .valueError) ∧
    ((axis < -((x.lead.length : Int) + 2) ∨ (x.lead.length : Int) + 2 ≤ axis) → mulToAxisAt x f axis = .error .valueError) := by
  constructor
  · intro a ha haxis hs hz
    have hmod := mod_axis (N := x.lead.length + 1 + 1) (by omega) (haxis.imp id fun h => by rw [h]; push_cast; ring)
    obtain ⟨p1, p2, p3, p4, p5, p6⟩ := hx.inv.pairs
    unfold mulToAxisAt
    simp only
    rw [if_neg (by rcases haxis with h | h <;> rw [h] <;> push_cast <;> omega), hmod, if_neg (by omega)]
    split_ifs with h1 h2
    · rfl
    · rfl
    · exfalso
      apply h2
      obtain ⟨b, hb, rfl⟩ := hz
      rw [← p5, List.mem_map] at hb
      obtain ⟨⟨m, c⟩, hq, hc⟩ := hb
      rw [List.any_eq_true]
      refine ⟨(⟨m.mul / f, m.ir⟩, c), ?_, ?_⟩
      · rw [List.zip_map_left, List.mem_map]
        exact ⟨(m, c), hq, rfl⟩
      · simp only [Bool.and_eq_true, bne_iff_ne, ne_eq]
        refine ⟨by simpa [Option.isNone_eq_false_iff] using hc, fun he => hs ?_⟩
        rw [insertIdx_append_left _ _ _ _ ha, show x.lead ++ [f, m.mul / f, m.ir.dim] = (x.lead ++ [f]) ++ [m.mul / f, m.ir.dim] by simp] at he
        exact List.append_cancel_right he
  · intro h
    unfold mulToAxisAt
    simp only
    rw [if_pos (by push_cast; omega)]

/-- `axis_to_mul` refuses the irreps axis, an axis out of range, and an array without leading axes. -/
theorem C122_axis_to_mul_refuse (x : NArr α) (axis : Int) :
    (x.lead = [] → axisToMulAt x axis = .error .assertion) ∧
    (x.lead ≠ [] → (axis = -1 ∨ axis = x.lead.length ∨ axis < -((x.lead.length : Int) + 1) ∨ (x.lead.length : Int) + 1 ≤ axis) →
      axisToMulAt x axis = .error .valueError) := by
  constructor
  · intro h
    unfold axisToMulAt
    simp [h]
  · intro h0 h
    have hl : 0 < x.lead.length := List.length_pos_iff.mpr h0
    unfold axisToMulAt
    simp only
    rw [if_neg (by omega)]
    by_cases hr : -((x.lead.length + 1 : ℕ) : Int) ≤ axis ∧ axis < ((x.lead.length + 1 : ℕ) : Int)
    · rw [if_neg (by simpa using hr)]
      have := mod_axis (axis := axis) (a := x.lead.length) (N := x.lead.length + 1) (by omega) (by push_cast at hr ⊢; omega)
      rw [this, if_pos (by omega)]
    · rw [if_pos hr]

/-- A factor which does not divide one multiplicity is refused with ValueError, and the factor 0 with ZeroDivisionError, for every axis in range. -/
theorem C122_factor_refuse (x : NArr α) (f : ℕ) (axis : Int) (ha : -((x.lead.length : Int) + 2) ≤ axis) (hb : axis < (x.lead.length : Int) + 2)
    (m : MulIrrep) (hm : m ∈ x.val.irreps) :
    (0 < f → ¬ f ∣ m.mul → mulToAxisAt x f axis = .error .valueError) ∧ (f = 0 → mulToAxisAt x f axis = .error .zeroDivision) := by
  have hr : ¬ ¬ (-(((x.lead.length + 1 : ℕ) : Int) + 1) ≤ axis ∧ axis < ((x.lead.length + 1 : ℕ) : Int) + 1) := by
    push_cast; rw [not_not]; constructor <;> omega
  constructor
  · intro hf hd
    unfold mulToAxisAt
    simp only
    rw [if_neg hr, if_neg (by omega), if_pos]
    simp only [Bool.not_eq_true', List.all_eq_false]
    refine ⟨m, hm, ?_⟩
    simpa [Nat.dvd_iff_mod_eq_zero] using hd
  · intro hf
    unfold mulToAxisAt
    simp only
    rw [if_neg hr, if_pos ⟨hf, List.ne_nil_of_mem hm⟩]

/-- Hypotheses of `C122_factor_refuse`: `3` does not divide the multiplicity of `4x0e`. -/
example : (⟨4, ⟨0, .e⟩⟩ : MulIrrep) ∈ [(⟨4, ⟨0, .e⟩⟩ : MulIrrep)] ∧ ¬ 3 ∣ 4 := by decide

/-- `axis_to_mul(axis)` undoes `mul_to_axis(factor, axis)`. -/
theorem C122_round_trip (x : NArr α) (hx : x.val.Coherent) (f : ℕ) (hf : 0 < f) (hdiv : ∀ m ∈ x.val.irreps, f ∣ m.mul) (axis : Int) (a : ℕ)
    (ha : a ≤ x.lead.length) (haxis : axis = a ∨ axis = (a : Int) - (x.lead.length + 2)) (hs : x.lead.insertIdx a f = x.lead ++ [f]) :
    ∃ y z, mulToAxisAt x f axis = .ok y ∧ axisToMulAt y axis = .ok z ∧ z.lead = x.lead ∧ z.val.irreps = x.val.irreps ∧
      z.val.zeroFlags = x.val.zeroFlags ∧
      ∀ (t : ℕ) (m : MulIrrep), x.val.irreps[t]? = some m → ∀ i, IsIdx x.lead i → ∀ j e, j < m.mul → e < 2 * m.ir.l + 1 →
        entry z t i j e = entry x t i j e := by
  obtain ⟨y, y1, y2, y3, y4, y5, y6⟩ := C122_mul_to_axis x hx f hf hdiv axis a ha haxis hs
  have hyl : y.lead.length = x.lead.length + 1 := by rw [y3, List.length_insertIdx_of_le_length ha]
  have her : y.lead.eraseIdx a = x.lead := by rw [y3, List.eraseIdx_insertIdx_self]
  have hga : y.lead.getD a 0 = f := by
    rw [y3, List.getD_eq_getElem?_getD, List.getElem?_insertIdx_self, if_pos ha]; rfl
  obtain ⟨z, z1, z2, z3, z4, z5, z6⟩ := C122_axis_to_mul y y2 axis a (by omega) (haxis.imp id fun h => by rw [h, hyl]; push_cast; ring)
    (by rw [her, y3, hs]; simp)
  refine ⟨y, z, y1, z1, z3.trans her, ?_, z5.trans y5, ?_⟩
  · rw [z4, y4, List.map_map]
    conv_rhs => rw [← List.map_id x.val.irreps]
    apply List.map_congr_left
    intro m hm
    simp only [Function.comp_apply, hga, id, Nat.mul_div_cancel' (hdiv m hm)]
  · intro t m hm i hi j e hj he
    have hm' : y.val.irreps[t]? = some ⟨m.mul / f, m.ir⟩ := by rw [y4, List.getElem?_map, hm]; rfl
    have hd := hdiv m (List.mem_of_getElem? hm)
    have hq : 0 < m.mul / f := Nat.div_pos (Nat.le_of_dvd (by omega) hd) hf
    have hk : j / (m.mul / f) < f := by
      rw [Nat.div_lt_iff_lt_mul hq, Nat.mul_div_cancel' hd]; exact hj
    have hr : j % (m.mul / f) < m.mul / f := Nat.mod_lt _ hq
    have hjj : j / (m.mul / f) * (m.mul / f) + j % (m.mul / f) = j := by rw [mul_comm]; exact Nat.div_add_mod _ _
    have h1 := z6 t _ hm' i (by rw [z3, her]; exact hi) (j / (m.mul / f)) (j % (m.mul / f)) e (by rw [hga]; exact hk) hr he
    have h2 := y6 t m hm i hi (j / (m.mul / f)) (j % (m.mul / f)) e hk hr he
    simp only [hjj] at h1 h2
    exact h1.trans h2

/-- For the default `axis=-2` the conditions on the shapes hold, whatever the leading axes are. -/
theorem C122_default (lead : List ℕ) (f : ℕ) : lead.insertIdx lead.length f = lead ++ [f] ∧
    (lead ++ [f]).eraseIdx lead.length = (lead ++ [f]).dropLast := by
  constructor
  · induction lead with
    | nil => rfl
    | cons n l ih => simp
  · rw [List.dropLast_concat]
    induction lead with
    | nil => rfl
    | cons n l ih => simpa using ih

/-- The condition also holds for other axes, when the axes from there on have the same length: `axis=1` for the shape (3, 2, 2). -/
example : [3, 2, 2].insertIdx 1 2 = [3, 2, 2] ++ [2] ∧ [3, 2, 2, 2].eraseIdx 1 = [3, 2, 2, 2].dropLast := by decide

/-- `x = IrrepsArray("0e", [[[0],[1],[2]],[[3],[4],[5]]])` of shape (2, 3, 1). -/
def wit : NArr ℕ := ⟨[2, 3], ⟨[⟨1, ⟨0, .e⟩⟩], [fun p => p.val], none, none⟩⟩

/-- `axis_to_mul(axis=0)` of an array of shape (2, 3, 1) should have the shape (3, 2); it has the shape (2, 3) and its first row mixes both axes:
`x[0, 0], x[1, 0], x[0, 1]`. -/
theorem C122_axis_witness : wit.val.Coherent ∧ ∃ y, axisToMulAt wit 0 = .ok y ∧ y.lead = [2] ∧ y.val.irreps = [⟨3, ⟨0, .e⟩⟩] ∧
    entry y 0 [0] 0 0 = entry wit 0 [0, 0] 0 0 ∧ entry y 0 [0] 1 0 = entry wit 0 [1, 0] 0 0 ∧ entry y 0 [0] 2 0 = entry wit 0 [0, 1] 0 0 ∧
    entry wit 0 [0, 1] 0 0 = 1 := by
  obtain ⟨y, h1, h2, -⟩ := (C12_from_array wit.val.irreps wit.val.array).1 rfl
  have : wit.val = y := Except.ok.inj ((show Except.ok wit.val = ofArray wit.val.irreps wit.val.array from rfl).trans h1)
  refine ⟨this ▸ h2, _, rfl, rfl, rfl, ?_⟩
  decide

/-- `mul_to_axis(2, axis=-1)` of `4x0e` should raise ValueError; it returns the copies in another order. -/
theorem C122_last_axis_witness : ∃ y, mulToAxisAt (⟨[], ⟨[⟨4, ⟨0, .e⟩⟩], [fun _ => 0, fun _ => 1, fun _ => 2, fun _ => 3], none, none⟩⟩ : NArr ℕ) 2 (-1)
      = .ok y ∧ y.lead = [2] ∧ entry y 0 [0] 0 0 = 0 ∧ entry y 0 [0] 1 0 = 2 ∧ entry y 0 [1] 0 0 = 1 ∧ entry y 0 [1] 1 0 = 3 := by
  refine ⟨_, rfl, rfl, ?_⟩
  decide

end E3nn.Shp

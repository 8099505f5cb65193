import Verif.Spec.Pytree
import Verif.Props.C12_C20

/-!
# C125: `IrrepsArray` in jax pytrees
-/

namespace E3nn.Pt

open E3nn.IArr

variable {α β γ : Type}

theorem rebuild_fit {I : Irreps} {a : Leaf α} (h : Fits I a) : rebuild I a = .ok (fresh I a) := by
  cases a with
  | bare v => rfl
  | cols a =>
    have h' : a.length = I.dim := by rw [Irreps.dim_eq_dimOf_expand]; exact h
    simp [rebuild, fresh, ofArray, make, h']

theorem rebuild_unfit {I : Irreps} {a : Leaf α} (h : ¬ Fits I a) : rebuild I a = .error .valueError := by
  cases a with
  | bare v => exact absurd trivial h
  | cols a =>
    have h' : a.length ≠ I.dim := by rw [Irreps.dim_eq_dimOf_expand]; exact h
    simp [rebuild, ofArray, make, h']

/-- Every array of the tree fits its irreps after `f`. -/
def AllFit (f : Leaf α → Leaf β) (t : Tree α) : Prop := ∀ I a, Holds t I a → Fits I (f a)

theorem allFit_arr (f : Leaf α → Leaf β) (x : IArr α) : AllFit f (.arr x) ↔ Fits x.irreps (f (.cols x.array)) := by
  constructor
  · intro h; exact h _ _ (Holds.arr x)
  · rintro h I a ⟨⟩; exact h

theorem allFit_bare (f : Leaf α → Leaf β) (I : Irreps) (v : α) : AllFit f (.bareArr I v) ↔ Fits I (f (.bare v)) := by
  constructor
  · intro h; exact h _ _ (Holds.bareArr I v)
  · rintro h I a ⟨⟩; exact h

theorem allFit_node (f : Leaf α → Leaf β) (k : String) (cs : List (Tree α)) : AllFit f (.node k cs) ↔ ∀ t ∈ cs, AllFit f t := by
  constructor
  · intro h t ht I a hh; exact h _ _ (Holds.node k cs t ht I a hh)
  · rintro h I a ⟨⟩
    rename_i t ht hh
    exact h _ ht _ _ hh

mutual
theorem unflatten_aux (f : Leaf α → Leaf β) : ∀ (t : Tree α) (rest : List (Leaf β)),
    (AllFit f t → unflattenAux (structure' t) ((leaves t).map f ++ rest) = .ok (applied f t, rest)) ∧
    (¬ AllFit f t → unflattenAux (structure' t) ((leaves t).map f ++ rest) = .error .valueError)
  | .none, rest => ⟨fun _ => by simp [structure', leaves, unflattenAux, applied], fun h => absurd (by rintro I a ⟨⟩) h⟩
  | .leaf a, rest => ⟨fun _ => by simp [structure', leaves, unflattenAux, applied], fun h => absurd (by rintro I a ⟨⟩) h⟩
  | .irreps I, rest => ⟨fun _ => by simp [structure', leaves, unflattenAux, applied], fun h => absurd (by rintro I a ⟨⟩) h⟩
  | .arr x, rest => by
    rw [allFit_arr]
    exact ⟨fun h => by simp [structure', leaves, unflattenAux, applied, rebuild_fit h],
      fun h => by simp [structure', leaves, unflattenAux, rebuild_unfit h]⟩
  | .bareArr I v, rest => by
    rw [allFit_bare]
    exact ⟨fun h => by simp [structure', leaves, unflattenAux, applied, rebuild_fit h],
      fun h => by simp [structure', leaves, unflattenAux, rebuild_unfit h]⟩
  | .node k cs, rest => by
    have h := unflatten_list f cs rest
    rw [allFit_node]
    exact ⟨fun h' => by simp [structure', leaves, unflattenAux, applied, h.1 h'],
      fun h' => by simp [structure', leaves, unflattenAux, h.2 h']⟩

theorem unflatten_list (f : Leaf α → Leaf β) : ∀ (ts : List (Tree α)) (rest : List (Leaf β)),
    ((∀ t ∈ ts, AllFit f t) → unflattenL (structureL ts) ((leavesL ts).map f ++ rest) = .ok (appliedL f ts, rest)) ∧
    ((¬ ∀ t ∈ ts, AllFit f t) → unflattenL (structureL ts) ((leavesL ts).map f ++ rest) = .error .valueError)
  | [], rest => ⟨fun _ => by simp [structureL, leavesL, unflattenL, appliedL], fun h => absurd (by simp) h⟩
  | t :: ts, rest => by
    have h1 := unflatten_aux f t ((leavesL ts).map f ++ rest)
    have h2 := unflatten_list f ts rest
    constructor
    · intro h
      have ht := h t (by simp)
      have hts := fun s hs => h s (List.mem_cons_of_mem _ hs)
      simp [structureL, leavesL, unflattenL, appliedL, h1.1 ht, h2.1 hts]
    · intro h
      by_cases ht : AllFit f t
      · have hts : ¬ ∀ s ∈ ts, AllFit f s := fun hh => h (by simpa using ⟨ht, hh⟩)
        simp [structureL, leavesL, unflattenL, h1.1 ht, h2.2 hts]
      · simp [structureL, leavesL, unflattenL, h1.2 ht]
end

/-- `tree_map(f, tree)` on any nesting of containers applies `f` to every array in place, the arrays of `IrrepsArray`s included, and keeps their irreps,
if `f` leaves the last axis of each of them alone (or removes all axes); if it changes the length of one of these last axes, it raises ValueError. -/
theorem C125_tree_map (f : Leaf α → Leaf β) (t : Tree α) :
    ((∀ I a, Holds t I a → Fits I (f a)) → treeMap f t = .ok (applied f t)) ∧
    (∀ I a, Holds t I a → ¬ Fits I (f a) → treeMap f t = .error .valueError) := by
  have h := unflatten_aux f t []
  rw [List.append_nil] at h
  refine ⟨fun h' => ?_, fun I a ha hn => ?_⟩
  · unfold treeMap unflatten; rw [h.1 h']
  · unfold treeMap unflatten; rw [h.2 fun hh => hn (hh I a ha)]

mutual
theorem structure_applied (f : Leaf α → Leaf β) : ∀ t : Tree α, structure' (applied f t) = structure' t
  | .none => rfl
  | .leaf _ => rfl
  | .irreps _ => rfl
  | .arr x => by simp only [applied, structure']; cases f (.cols x.array) <;> rfl
  | .bareArr I v => by simp only [applied, structure']; cases f (.bare v) <;> rfl
  | .node k cs => by simp only [applied, structure', structure_list f cs]

theorem structure_list (f : Leaf α → Leaf β) : ∀ ts : List (Tree α), structureL (appliedL f ts) = structureL ts
  | [] => rfl
  | t :: ts => by simp only [appliedL, structureL, structure_applied f t, structure_list f ts]
end

mutual
theorem leaves_applied (f : Leaf α → Leaf β) : ∀ t : Tree α, leaves (applied f t) = (leaves t).map f
  | .none => rfl
  | .leaf _ => rfl
  | .irreps _ => rfl
  | .arr x => by simp only [applied, leaves]; cases h : f (.cols x.array) <;> simp [fresh, leaves, h]
  | .bareArr I v => by simp only [applied, leaves]; cases h : f (.bare v) <;> simp [fresh, leaves, h]
  | .node k cs => by simp only [applied, leaves, leaves_list f cs]

theorem leaves_list (f : Leaf α → Leaf β) : ∀ ts : List (Tree α), leavesL (appliedL f ts) = (leavesL ts).map f
  | [] => rfl
  | t :: ts => by simp only [appliedL, leavesL, leaves_applied f t, leaves_list f ts, List.map_append]
end

/-- `tree_map` keeps the structure (what `lax.scan` and `lax.cond` compare) and maps the list of leaves. -/
theorem C125_structure (f : Leaf α → Leaf β) (t : Tree α) (u : Tree β) (h : treeMap f t = .ok u) :
    structure' u = structure' t ∧ leaves u = (leaves t).map f := by
  have hf : AllFit f t := by
    intro I a ha
    by_contra hn
    rw [(C125_tree_map f t).2 I a ha hn] at h
    cases h
  rw [(C125_tree_map f t).1 hf] at h
  cases h
  exact ⟨structure_applied f t, leaves_applied f t⟩

/-- Mapping twice is mapping once with the composition. -/
theorem C125_compose (f : Leaf α → Leaf β) (g : Leaf β → Leaf γ) (t : Tree α) (u : Tree β) (h : treeMap f t = .ok u) :
    treeMap g u = treeMap (g ∘ f) t := by
  obtain ⟨h1, h2⟩ := C125_structure f t u h
  unfold treeMap
  rw [h1, h2, List.map_map]

/-- An `IrrepsArray` passed through `tree_flatten` and `tree_unflatten` (so through `jit`, `vmap`, `scan` or `tree_map(identity)`): same irreps, same
array, all views still agree; only the zero flags are lost: no chunk is `None`. -/
theorem C125_round_trip [Zero α] (x : IArr α) (hx : x.Coherent) :
    ∃ y, unflatten (structure' (.arr x)) (leaves (.arr x)) = .ok (.arr y) ∧ y.Coherent ∧ y.irreps = x.irreps ∧ y.array = x.array ∧
      y.terms = x.terms ∧ (∀ b ∈ y.zeroFlags, b = false) ∧ ∀ c ∈ y.chunks, c ≠ none := by
  obtain ⟨y, h1, h2, h3, h4, -, h6⟩ := (C12_from_array x.irreps x.array).1 hx.array_length
  refine ⟨y, ?_, h2, h3, h4, by unfold terms; rw [h3, h4], ?_, h6⟩
  · simp [unflatten, structure', leaves, unflattenAux, rebuild, h1]
  · intro b hb
    have hz : y.zeroFlags? = none := by
      unfold ofArray make at h1
      split_ifs at h1
      cases h1
      rfl
    unfold zeroFlags at hb
    rw [hz] at hb
    exact (List.mem_replicate.mp hb).2

/-- The structures of two `IrrepsArray`s are equal exactly when their irreps are, whatever their zero flags; those of two `Irreps` when they are equal. -/
theorem C125_same (x : IArr α) (y : IArr β) (I J : Irreps) :
    (structure' (.arr x) = structure' (.arr y) ↔ x.irreps = y.irreps) ∧
    (structure' (.irreps I : Tree α) = structure' (.irreps J : Tree β) ↔ I = J) ∧ leaves (.irreps I : Tree α) = [] := by
  simp [structure', leaves]

/-- A dictionary with an array of irreps `0e + 1o`, flagged zero in its second term, and a plain array. -/
def wit : Tree ℤ := .node "dict:w,x" [.leaf (.cols [1, 2]), .arr ⟨[⟨1, ⟨0, .e⟩⟩, ⟨1, ⟨1, .o⟩⟩], [3, 0, 0, 0], some [false, true], none⟩]

/-- Doubling all arrays of the dictionary meets the hypotheses; taking the first three columns does not. -/
theorem C125_witness : (∀ I a, Holds wit I a → Fits I (a : Leaf ℤ)) ∧
    treeMap (fun a : Leaf ℤ => match a with | .cols c => .cols (c.map (2 * ·)) | .bare v => .bare (2 * v)) wit =
      .ok (.node "dict:w,x" [.leaf (.cols [2, 4]), .arr ⟨[⟨1, ⟨0, .e⟩⟩, ⟨1, ⟨1, .o⟩⟩], [6, 0, 0, 0], none, none⟩]) ∧
    treeMap (fun a : Leaf ℤ => match a with | .cols c => .cols (c.take 3) | .bare v => .bare v) wit = .error .valueError ∧
    treeMap (fun a : Leaf ℤ => match a with | .cols c => .bare c.sum | .bare v => .bare v) wit =
      .ok (.node "dict:w,x" [.leaf (.bare 3), .bareArr [⟨1, ⟨0, .e⟩⟩, ⟨1, ⟨1, .o⟩⟩] 3]) := by
  refine ⟨?_, rfl, rfl, rfl⟩
  rintro I a ⟨⟩
  rename_i t ht hh
  simp only [List.mem_cons, List.not_mem_nil, or_false] at ht
  rcases ht with rfl | rfl
  · cases hh
  · cases hh
    rfl

end E3nn.Pt

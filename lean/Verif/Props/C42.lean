import Verif.Model.Scatter
import Verif.Lemmas.Sort
import Mathlib.Algebra.BigOperators.Group.List.Basic
import Mathlib.Tactic.Ring
import Mathlib.Tactic.Abel
import Mathlib.Tactic.Linarith
import Mathlib.Data.List.Nodup
import Mathlib.Data.List.Infix

/-!
# C42: segment sums

The results are described entry by entry with `List.filter` and `List.sum`; no helper of the model
appears in the statements except the functions themselves.
-/

namespace E3nn.Scatter

/-- The entries of `data` whose index is `i`. -/
def pick {α : Type} (i : Int) (dst : List Int) (data : List α) : List α :=
  ((dst.zip data).filter fun p => decide (p.1 = i)).map Prod.snd

/-- All indices are in `[0, n)`. -/
def InRange (dst : List Int) (n : Nat) : Prop := ∀ i ∈ dst, 0 ≤ i ∧ i < n

section
variable {α : Type}

theorem scatterAt_length (op : α → α → α) (z : List α) (ps : List (Option Nat × α)) : (scatterAt op z ps).length = z.length := by
  unfold scatterAt
  induction ps generalizing z with
  | nil => rfl
  | cons p ps ih =>
    rw [List.foldl_cons, ih]
    obtain ⟨i, a⟩ := p
    cases i <;> simp

theorem scatterAt_get (op : α → α → α) (z : List α) (ps : List (Option Nat × α)) (i : Nat) :
    (scatterAt op z ps)[i]? = z[i]?.map fun a => ((ps.filter fun p => decide (p.1 = some i)).map Prod.snd).foldl op a := by
  unfold scatterAt
  induction ps generalizing z with
  | nil => simp
  | cons p ps ih =>
    rw [List.foldl_cons, ih]
    obtain ⟨j, a⟩ := p
    cases j with
    | none => simp
    | some j =>
      by_cases h : j = i
      · subst h
        simp [List.getElem?_modify, Option.map_map, Function.comp_def]
      · simp [List.getElem?_modify, h]

theorem mapM_ok {β γ : Type} (f : β → Except PyErr γ) (g : β → γ) (l : List β) (h : ∀ b ∈ l, f b = .ok (g b)) : l.mapM f = .ok (l.map g) := by
  induction l with
  | nil => rfl
  | cons b l ih =>
    rw [List.mapM_cons, h b (by simp), ih fun c hc => h c (by simp [hc])]
    rfl

theorem jaxIndex_range {mode : Mode} {n : Nat} {i : Int} (h : 0 ≤ i ∧ i < n) : jaxIndex mode n i = .ok (some i.toNat) := by
  unfold jaxIndex
  simp only [if_neg (show ¬ i < 0 by omega), if_pos h]

theorem filter_idx (dst : List Int) (data : List α) (n i : Nat) (h : InRange dst n) :
    (((dst.map fun j => some j.toNat).zip data).filter fun p => decide (p.1 = some i)).map Prod.snd = pick i dst data := by
  unfold pick
  induction dst generalizing data with
  | nil => simp
  | cons j dst ih =>
    cases data with
    | nil => simp
    | cons a data =>
      have hj := h j (by simp)
      have ih := ih data fun k hk => h k (by simp [hk])
      have e : (some j.toNat = some i) ↔ j = (i : Int) := by
        constructor
        · intro e; injection e with e; omega
        · intro e; subst e; simp
      simp only [List.map_cons, List.zip_cons_cons, List.filter_cons]
      by_cases hc : j = (i : Int)
      · simp only [hc, decide_true, if_true, List.map_cons, Int.toNat_natCast] at *
        rw [ih]
      · simp only [e, hc, decide_false, Bool.false_eq_true, if_false]
        exact ih

theorem scatterOp_idx (op : α → α → α) (initial : α) (data : List α) (dst : List Int) (n : Nat) (mode : Mode) (idx : List (Option Nat))
    (hl : dst.length = data.length) (h : dst.mapM (jaxIndex mode n) = .ok idx) :
    scatterOp op initial data (some dst) none (some n) false mode = .ok (scatterAt op (List.replicate n initial) (idx.zip data)) := by
  show scatterOp.go op initial data false mode dst (some n) = _
  unfold scatterOp.go
  rw [if_neg (by simpa using hl)]
  simp only [h]
  rfl

/-- The common form: entry `i` of the result combines the initial value with the entries whose index
is `i`, in order. -/
theorem scatterOp_dst (op : α → α → α) (initial : α) (data : List α) (dst : List Int) (n : Nat) (mode : Mode)
    (hl : dst.length = data.length) (hr : InRange dst n) :
    ∃ out, scatterOp op initial data (some dst) none (some n) false mode = .ok out ∧ out.length = n ∧
      ∀ i, i < n → out[i]? = some ((pick i dst data).foldl op initial) := by
  have h := mapM_ok (jaxIndex mode n) (fun j => some j.toNat) dst fun j hj => jaxIndex_range (hr j hj)
  refine ⟨scatterAt op (List.replicate n initial) ((dst.map fun j => some j.toNat).zip data), ?_, ?_, ?_⟩
  · show scatterOp.go op initial data false mode dst (some n) = _
    unfold scatterOp.go
    rw [if_neg (by simpa using hl)]
    simp only [h]
    rfl
  · rw [scatterAt_length, List.length_replicate]
  · intro i hi
    rw [scatterAt_get, filter_idx dst data n i hr]
    simp [List.getElem?_replicate, hi]

theorem foldl_add {α : Type} [AddCommMonoid α] (l : List α) (a : α) : l.foldl (· + ·) a = a + l.sum := by
  induction l generalizing a with
  | nil => simp
  | cons b l ih => rw [List.foldl_cons, ih, List.sum_cons, add_assoc]

end

section
variable {α : Type} [AddCommGroup α] [Module ℝ α]

/-- **C42 (sum).** `scatter_sum(data, dst=dst, output_size=n)`: entry `i` is the sum of the `data[j]`
with `dst[j] == i` (zero if there is none), for every mode, as soon as the indices are in range. -/
theorem C42_sum (data : List α) (dst : List Int) (n : Nat) (mode : Mode) (hl : dst.length = data.length) (hr : InRange dst n) :
    ∃ out, scatterSum data (some dst) none (some n) false mode = .ok out ∧ out.length = n ∧
      ∀ i, i < n → out[i]? = some (pick i dst data).sum := by
  obtain ⟨out, h1, h2, h3⟩ := scatterOp_dst (· + ·) 0 data dst n mode hl hr
  refine ⟨out, h1, h2, fun i hi => ?_⟩
  rw [h3 i hi, foldl_add, zero_add]

theorem scatterAt_sum (z : List α) (ps : List (Option Nat × α)) (h : ∀ p ∈ ps, ∃ i, p.1 = some i ∧ i < z.length) :
    (scatterAt (· + ·) z ps).sum = z.sum + (ps.map Prod.snd).sum := by
  unfold scatterAt
  induction ps generalizing z with
  | nil => simp
  | cons p ps ih =>
    obtain ⟨i, hi, hz⟩ := h p (by simp)
    obtain ⟨j, a⟩ := p
    simp only at hi
    subst hi
    rw [List.foldl_cons, ih _ (by intro q hq; rw [List.length_modify]; exact h q (by simp [hq]))]
    have : ∀ (z : List α) (i : Nat), i < z.length → (z.modify i fun b => b + a).sum = z.sum + a := by
      intro z
      induction z with
      | nil => intro i hi; simp at hi
      | cons b z ihz =>
        intro i hi
        cases i with
        | zero => simp; abel
        | succ i =>
          simp only [List.modify_succ_cons, List.sum_cons]
          rw [ihz i (by simpa using hi)]; abel
    show (z.modify i fun b => b + a).sum + _ = _
    rw [this z i hz, List.map_cons, List.sum_cons, add_assoc]

/-- **C42 (conservation).** Nothing is lost: the entries of the result add up to the entries of the
data. -/
theorem C42_total (data : List α) (dst : List Int) (n : Nat) (mode : Mode) (hl : dst.length = data.length) (hr : InRange dst n) :
    ∃ out, scatterSum data (some dst) none (some n) false mode = .ok out ∧ out.sum = data.sum := by
  have h := mapM_ok (jaxIndex mode n) (fun j => some j.toNat) dst fun j hj => jaxIndex_range (hr j hj)
  refine ⟨scatterAt (· + ·) (List.replicate n 0) ((dst.map fun j => some j.toNat).zip data), ?_, ?_⟩
  · show scatterOp.go (· + ·) 0 data false mode dst (some n) = _
    unfold scatterOp.go
    rw [if_neg (by simpa using hl)]
    simp only [h]
    rfl
  · rw [scatterAt_sum, List.map_snd_zip (by simp [hl])]
    · simp
    · intro p hp
      obtain ⟨j, hj, e⟩ := List.mem_map.mp (List.of_mem_zip hp).1
      have := hr j hj
      exact ⟨j.toNat, e.symm, by rw [List.length_replicate]; omega⟩

/-- **C42 (order).** The order of the pairs (index, entry) does not matter. -/
theorem C42_order (ps qs : List (Int × α)) (hp : ps.Perm qs) (n : Nat) (mode : Mode) (hr : InRange (ps.map Prod.fst) n) :
    scatterSum (ps.map Prod.snd) (some (ps.map Prod.fst)) none (some n) false mode =
      scatterSum (qs.map Prod.snd) (some (qs.map Prod.fst)) none (some n) false mode := by
  have hr' : InRange (qs.map Prod.fst) n := fun i hi => hr i ((hp.map Prod.fst).mem_iff.mpr hi)
  obtain ⟨o1, a1, a2, a3⟩ := C42_sum (ps.map Prod.snd) (ps.map Prod.fst) n mode (by simp) hr
  obtain ⟨o2, b1, b2, b3⟩ := C42_sum (qs.map Prod.snd) (qs.map Prod.fst) n mode (by simp) hr'
  rw [a1, b1]
  congr 1
  apply List.ext_getElem?
  intro i
  by_cases hi : i < n
  · rw [a3 i hi, b3 i hi]
    congr 1
    unfold pick
    rw [List.zip_map', List.zip_map', List.map_id', List.map_id']
    exact ((hp.filter _).map _).sum_eq
  · rw [List.getElem?_eq_none (by omega), List.getElem?_eq_none (by omega)]

/-- **C42 (equivariance).** Every additive map of the entries (in particular a rotation of the
features) commutes with `scatter_sum`, in all its forms. -/
theorem C42_additive {β : Type} [AddCommGroup β] [Module ℝ β] (f : α →+ β) (data : List α) (dst : Option (List Int)) (nel : Option (List Nat))
    (size : Option Nat) (back : Bool) (mode : Mode) :
    scatterSum (data.map f) dst nel size back mode = (scatterSum data dst nel size back mode).map (List.map f) := by
  have key : ∀ (z : List α) (ps : List (Option Nat × α)),
      scatterAt (· + ·) (z.map f) (ps.map fun p => (p.1, f p.2)) = (scatterAt (· + ·) z ps).map f := by
    intro z ps
    unfold scatterAt
    induction ps generalizing z with
    | nil => rfl
    | cons p ps ih =>
      obtain ⟨i, a⟩ := p
      rw [List.map_cons, List.foldl_cons, List.foldl_cons]
      cases i with
      | none => exact ih z
      | some i =>
        rw [← ih]
        congr 1
        apply List.ext_getElem?
        intro j
        simp only [List.getElem?_modify, List.getElem?_map, Option.map_map]
        by_cases h : i = j
        · subst h; simp [Function.comp_def]
        · simp [h]
  have hz : ∀ (idx : List (Option Nat)), idx.zip (data.map f) = (idx.zip data).map fun p => (p.1, f p.2) := by
    intro idx; rw [List.zip_map_right]; rfl
  have hgo : ∀ (dst : List Int) (size : Option Nat), scatterOp.go (· + ·) 0 (data.map f) back mode dst size =
      (scatterOp.go (· + ·) 0 data back mode dst size).map (List.map f) := by
    intro dst size
    unfold scatterOp.go
    rw [List.length_map]
    split
    · rfl
    · cases size with
      | none =>
        cases back with
        | false => rfl
        | true =>
          simp only
          cases hm : (distinctButSmall dst).mapM (jaxIndex mode dst.length) with
          | error e => rfl
          | ok idx =>
            cases hb : (distinctButSmall dst).mapM (jaxIndex .drop dst.length) with
            | error e => rfl
            | ok bk =>
              show Except.ok _ = Except.ok _
              congr 1
              rw [hz, ← f.map_zero, ← List.map_replicate, key, List.map_filterMap]
              congr 1
              funext i
              cases i <;> simp
      | some n =>
        cases back with
        | true => rfl
        | false =>
          simp only
          cases hm : dst.mapM (jaxIndex mode n) with
          | error e => rfl
          | ok idx =>
            show Except.ok _ = Except.ok _
            congr 1
            rw [hz, ← f.map_zero, ← List.map_replicate, key]
  unfold scatterSum scatterOp
  rw [List.length_map]
  cases dst with
  | none =>
    cases nel with
    | none => rfl
    | some nel =>
      simp only
      split
      · rfl
      · exact hgo _ _
  | some dst =>
    cases nel with
    | none => exact hgo _ _
    | some nel => rfl

/-- **C42 (mode drop).** Indices out of range are ignored; negative ones count from the end. -/
theorem C42_drop (data : List α) (dst : List Int) (n : Nat) (hl : dst.length = data.length) :
    ∃ out, scatterSum data (some dst) none (some n) false .drop = .ok out ∧ out.length = n ∧
      ∀ i : Nat, i < n → out[i]? = some (((dst.zip data).filter fun p => decide (p.1 = (i : Int) ∨ p.1 = (i : Int) - n)).map Prod.snd).sum := by
  have h := mapM_ok (jaxIndex .drop n) (fun j => if 0 ≤ (if j < 0 then j + n else j) ∧ (if j < 0 then j + n else j) < n then
      some (if j < 0 then j + n else j).toNat else none) dst (by
    intro j _
    unfold jaxIndex
    simp only
    split_ifs <;> rfl)
  refine ⟨_, scatterOp_idx _ _ _ _ _ _ _ hl h, ?_, ?_⟩
  · rw [scatterAt_length, List.length_replicate]
  · intro i hi
    rw [scatterAt_get]
    simp only [List.getElem?_replicate, hi, if_true, Option.map_some, foldl_add, zero_add]
    congr 1
    congr 1
    rw [List.zip_map_left, List.filter_map, List.map_map]
    congr 1
    apply List.filter_congr
    rintro ⟨j, a⟩ _
    simp only [Function.comp_apply, Prod.map, id, decide_eq_decide]
    grind

/-! ### segments given by their sizes -/

theorem pick_append {β : Type} (i : Int) (d1 d2 : List Int) (x1 x2 : List β) (h : d1.length = x1.length) :
    pick i (d1 ++ d2) (x1 ++ x2) = pick i d1 x1 ++ pick i d2 x2 := by
  unfold pick
  rw [List.zip_append h, List.filter_append, List.map_append]

theorem pick_replicate {β : Type} (i j : Int) (x : List β) : pick i (List.replicate x.length j) x = if j = i then x else [] := by
  unfold pick
  induction x with
  | nil => simp
  | cons a x ih =>
    rw [List.length_cons, List.replicate_succ, List.zip_cons_cons, List.filter_cons]
    by_cases h : j = i
    · simp only [h, if_true, decide_true, List.map_cons] at *; rw [ih]
    · simp only [h, if_false, decide_false, Bool.false_eq_true] at *; exact ih

/-- The indices made from the sizes, when these add up to the number of entries. -/
def segments (nel : List Nat) (k : Nat) : List Int :=
  ((List.range' k nel.length).zip nel).flatMap fun p => List.replicate p.2 (p.1 : Int)

theorem segments_cons (m : Nat) (nel : List Nat) (k : Nat) : segments (m :: nel) k = List.replicate m (k : Int) ++ segments nel (k + 1) := by
  unfold segments
  rw [List.length_cons, List.range'_succ, List.zip_cons_cons, List.flatMap_cons]

theorem segments_length (nel : List Nat) (k : Nat) : (segments nel k).length = nel.sum := by
  induction nel generalizing k with
  | nil => rfl
  | cons m nel ih => rw [segments_cons, List.length_append, List.length_replicate, ih, List.sum_cons]

theorem segments_range (nel : List Nat) (k : Nat) : ∀ i ∈ segments nel k, (k : Int) ≤ i ∧ i < k + nel.length := by
  induction nel generalizing k with
  | nil => intro i hi; simp [segments] at hi
  | cons m nel ih =>
    intro i hi
    rw [segments_cons, List.mem_append] at hi
    rw [List.length_cons]
    rcases hi with hi | hi
    · have := (List.mem_replicate.mp hi).2; subst this; push_cast; omega
    · have := ih (k + 1) i hi; push_cast at *; omega

theorem segments_pick {β : Type} (nel : List Nat) (k : Nat) (x : List β) (hx : x.length = nel.sum) (j : Nat) (hj : j < nel.length) :
    pick ((k + j : Nat) : Int) (segments nel k) x = (x.drop (nel.take j).sum).take (nel.getD j 0) := by
  induction nel generalizing k x j with
  | nil => simp at hj
  | cons m nel ih =>
    rw [List.sum_cons] at hx
    have hm : (x.take m).length = m := by rw [List.length_take]; omega
    have e : pick ((k + j : Nat) : Int) (segments (m :: nel) k) x =
        pick ((k + j : Nat) : Int) (List.replicate (x.take m).length (k : Int)) (x.take m) ++ pick ((k + j : Nat) : Int) (segments nel (k + 1)) (x.drop m) := by
      rw [← pick_append _ _ _ _ _ (by simp), List.take_append_drop, segments_cons, hm]
    rw [e, pick_replicate]
    cases j with
    | zero =>
      have : pick ((k + 0 : Nat) : Int) (segments nel (k + 1)) (x.drop m) = [] := by
        unfold pick
        rw [List.map_eq_nil_iff, List.filter_eq_nil_iff]
        intro p hp
        have := segments_range nel (k + 1) p.1 (List.of_mem_zip hp).1
        simp only [decide_eq_true_eq]
        push_cast at *
        omega
      rw [this]
      simp
    | succ j =>
      rw [if_neg (by push_cast; omega), List.nil_append]
      rw [show ((k + (j + 1) : Nat) : Int) = ((k + 1 + j : Nat) : Int) by push_cast; ring]
      rw [ih (k + 1) (x.drop m) (by rw [List.length_drop]; omega) j (by simpa using hj)]
      rw [List.drop_drop, List.take_succ_cons, List.sum_cons, List.getD_cons_succ]

theorem repeatTotal_exact {β : Type} (a : List β) (nel : List Nat) (h : nel.length = a.length) :
    repeatTotal a nel nel.sum = (a.zip nel).flatMap fun p => List.replicate p.2 p.1 := by
  unfold repeatTotal
  rw [List.take_append_of_le_length, List.take_of_length_le]
  · apply le_of_eq; exact len a nel h
  · apply le_of_eq; exact (len a nel h).symm
where
  len (a : List β) (nel : List Nat) (h : nel.length = a.length) :
      ((a.zip nel).flatMap fun p => List.replicate p.2 p.1).length = nel.sum := by
    induction a generalizing nel with
    | nil => simp at h; subst h; rfl
    | cons b a ih =>
      cases nel with
      | nil => simp at h
      | cons m nel => simp [ih nel (by simpa using h)]

theorem repeat_segments (nel : List Nat) : repeatTotal ((List.range nel.length).map Int.ofNat) nel nel.sum = segments nel 0 := by
  rw [repeatTotal_exact _ _ (by simp)]
  unfold segments
  rw [List.range_eq_range', List.zip_map_left, List.flatMap_map]
  rfl

theorem scatterOp_nel {β : Type} (op : β → β → β) (initial : β) (data : List β) (nel : List Nat) (mode : Mode) (h : nel.sum = data.length) :
    scatterOp op initial data none (some nel) none false mode =
      scatterOp op initial data (some (segments nel 0)) none (some nel.length) false mode := by
  show scatterOp.go op initial data false mode (repeatTotal ((List.range nel.length).map Int.ofNat) nel data.length) (some nel.length) = _
  rw [← h, repeat_segments]
  rfl

theorem segments_inRange (nel : List Nat) : InRange (segments nel 0) nel.length := by
  intro i hi
  have := segments_range nel 0 i hi
  omega

/-- **C42 (segments).** `scatter_sum(data, nel=nel)`, with sizes that add up to the number of entries:
entry `i` is the sum of `data[sum(nel[:i]) : sum(nel[:i+1])]`. -/
theorem C42_nel (data : List α) (nel : List Nat) (mode : Mode) (h : nel.sum = data.length) :
    ∃ out, scatterSum data none (some nel) none false mode = .ok out ∧ out.length = nel.length ∧
      ∀ i, i < nel.length → out[i]? = some ((data.drop (nel.take i).sum).take (nel.getD i 0)).sum := by
  unfold scatterSum
  rw [scatterOp_nel _ _ _ _ _ h]
  obtain ⟨out, h1, h2, h3⟩ := C42_sum data (segments nel 0) nel.length mode (by rw [segments_length, h]) (segments_inRange nel)
  refine ⟨out, h1, h2, fun i hi => ?_⟩
  have := segments_pick nel 0 data h.symm i hi
  rw [Nat.zero_add] at this
  rw [h3 i hi, this]

/-- When the sizes add up to less, the remaining entries all go to the last segment (which the
documentation does not say): here the second entry is not in any segment. -/
theorem C42_nel_short_witness : scatterSum [(1 : ℝ), 2] none (some [1]) none false .drop = .ok [0 + 1 + 2] := rfl

/-! ### means -/

theorem pick_ones (i : Int) (dst : List Int) (n : Nat) (h : dst.length = n) :
    (pick i dst (List.replicate n (1 : Nat))).sum = dst.count i := by
  subst h
  unfold pick
  induction dst with
  | nil => simp
  | cons j dst ih =>
    rw [List.length_cons, List.replicate_succ, List.zip_cons_cons, List.filter_cons, List.count_cons]
    by_cases hj : j = i
    · simp only [hj, decide_true, if_true, List.map_cons, List.sum_cons, beq_self_eq_true]
      rw [ih]; omega
    · simp only [hj, decide_false, Bool.false_eq_true, if_false, beq_iff_eq, Nat.add_zero]
      exact ih

/-- **C42 (mean).** Entry `i` is the sum of the entries with index `i` divided by their number, and
zero if there are none. -/
theorem C42_mean (data : List α) (dst : List Int) (n : Nat) (mode : Mode) (hl : dst.length = data.length) (hr : InRange dst n) :
    ∃ out, scatterMean data (some dst) none (some n) false mode = .ok out ∧ out.length = n ∧
      ∀ i, i < n → out[i]? = some (((dst.count (i : Int) : ℕ) : ℝ)⁻¹ • (pick i dst data).sum) := by
  obtain ⟨out, h1, h2, h3⟩ := C42_sum data dst n mode hl hr
  obtain ⟨cnt, k1, k2, k3⟩ := scatterOp_dst (· + ·) 0 (List.replicate data.length 1) dst n mode (by simp [hl]) hr
  refine ⟨divide out cnt, ?_, ?_, ?_⟩
  · unfold scatterMean
    unfold scatterSum at h1
    simp only [h1, Option.isSome_some, true_or, if_true, k1]
    rfl
  · simp [divide, h2, k2]
  · intro i hi
    unfold divide
    rw [List.getElem?_zipWith, h3 i hi, k3 i hi]
    simp only [foldl_add, Nat.zero_add, pick_ones _ dst data.length hl]
    congr 1
    rcases Nat.eq_zero_or_pos (dst.count (i : Int)) with h0 | h0
    · have : pick (i : Int) dst data = [] := by
        unfold pick
        rw [List.map_eq_nil_iff, List.filter_eq_nil_iff]
        intro p hp
        simp only [decide_eq_true_eq]
        intro e
        have := List.count_pos_iff.mpr (List.of_mem_zip hp).1
        rw [e, h0] at this
        omega
      simp [this]
    · rw [max_eq_right h0]

/-- **C42 (mean of segments).** -/
theorem C42_mean_nel (data : List α) (nel : List Nat) (mode : Mode) (h : nel.sum = data.length) :
    ∃ out, scatterMean data none (some nel) none false mode = .ok out ∧ out.length = nel.length ∧
      ∀ i, i < nel.length → out[i]? = some (((nel.getD i 0 : ℕ) : ℝ)⁻¹ • ((data.drop (nel.take i).sum).take (nel.getD i 0)).sum) := by
  obtain ⟨out, h1, h2, h3⟩ := C42_nel data nel mode h
  refine ⟨divide out nel, ?_, ?_, ?_⟩
  · unfold scatterMean
    unfold scatterSum at h1
    simp [h1, bind, Except.bind, pure, Except.pure]
  · simp [divide, h2]
  · intro i hi
    unfold divide
    rw [List.getElem?_zipWith, h3 i hi, List.getElem?_eq_getElem hi]
    have e : nel.getD i 0 = nel[i] := by simp [List.getD, hi]
    simp only [e]
    congr 1
    rcases Nat.eq_zero_or_pos nel[i] with h0 | h0
    · simp [h0]
    · rw [max_eq_right h0]

/-! ### mapping back -/

theorem mem_unique (x : List Int) (i : Int) : i ∈ unique x ↔ i ∈ x := by
  unfold unique
  rw [(pySorted_perm _ _).mem_iff, List.mem_dedup]

theorem unique_length (x : List Int) : (unique x).length ≤ x.length := by
  unfold unique
  rw [(pySorted_perm _ _).length_eq]
  exact (List.dedup_sublist x).length_le

theorem distinct_range (x : List Int) : InRange (distinctButSmall x) x.length := by
  intro i hi
  obtain ⟨j, hj, rfl⟩ := List.mem_map.mp hi
  have := List.idxOf_lt_length_of_mem ((mem_unique x j).mpr hj)
  have := unique_length x
  omega

theorem distinct_inj (x : List Int) {i j : Int} (hi : i ∈ x) (hj : j ∈ x) :
    ((unique x).idxOf i : Int) = ((unique x).idxOf j : Nat) ↔ i = j := by
  constructor
  · intro h
    have h : (unique x).idxOf i = (unique x).idxOf j := by exact_mod_cast h
    exact (List.idxOf_inj ((mem_unique x i).mpr hi)).mp h
  · rintro rfl; rfl

theorem pick_distinct {β : Type} (dst : List Int) (data : List β) {j : Int} (hj : j ∈ dst) :
    pick ((unique dst).idxOf j : Nat) (distinctButSmall dst) data = pick j dst data := by
  unfold pick distinctButSmall
  rw [List.zip_map_left, List.filter_map, List.map_map]
  congr 1
  apply List.filter_congr
  rintro ⟨i, a⟩ hp
  simp only [Function.comp_apply, Prod.map, id, decide_eq_decide]
  exact distinct_inj dst (List.of_mem_zip hp).1 hj

theorem scatterOp_back {β : Type} (op : β → β → β) (initial : β) (data : List β) (dst : List Int) (mode : Mode)
    (hl : dst.length = data.length) :
    scatterOp op initial data (some dst) none none true mode =
      .ok (dst.map fun j => (pick j dst data).foldl op initial) := by
  have hd : (distinctButSmall dst).length = data.length := by rw [distinctButSmall, List.length_map, hl]
  have h := fun mode => mapM_ok (jaxIndex mode dst.length) (fun j => some j.toNat) (distinctButSmall dst)
    fun j hj => jaxIndex_range (distinct_range dst j hj)
  obtain ⟨out, o1, o2, o3⟩ := scatterOp_dst op initial data (distinctButSmall dst) dst.length mode hd (distinct_range dst)
  rw [scatterOp_idx _ _ _ _ _ _ _ hd (h mode)] at o1
  injection o1 with o1
  show scatterOp.go op initial data true mode dst none = _
  unfold scatterOp.go
  rw [if_neg (by simpa using hl)]
  simp only [h]
  show Except.ok _ = Except.ok _
  congr 1
  rw [o1]
  have e : (distinctButSmall dst).map (fun j => some j.toNat) = dst.map fun j => some ((unique dst).idxOf j) := by
    unfold distinctButSmall
    rw [List.map_map]
    rfl
  rw [e]
  have : ∀ l : List Int, (∀ j ∈ l, j ∈ dst) → (l.map fun j => some ((unique dst).idxOf j)).filterMap (fun i => i.bind fun i => out[i]?) =
      l.map fun j => (pick j dst data).foldl op initial := by
    intro l hlm
    induction l with
    | nil => rfl
    | cons j l ih =>
      have hj := hlm j (by simp)
      have hi : (unique dst).idxOf j < dst.length := by
        have := distinct_range dst ((unique dst).idxOf j : Nat) (List.mem_map.mpr ⟨j, hj, rfl⟩)
        omega
      rw [List.map_cons, List.filterMap_cons]
      simp only [Option.bind_some, o3 _ hi, pick_distinct dst data hj, List.map_cons]
      rw [ih fun k hk => hlm k (by simp [hk])]
  exact this dst fun j hj => hj

/-- **C42 (map back).** With `map_back=True` every entry receives the sum over the entries that
share its index.  The indices may be any integers. -/
theorem C42_map_back (data : List α) (dst : List Int) (mode : Mode) (hl : dst.length = data.length) :
    scatterSum data (some dst) none none true mode = .ok (dst.map fun j => (pick j dst data).sum) := by
  unfold scatterSum
  rw [scatterOp_back _ _ _ _ _ hl]
  simp only [foldl_add, zero_add]

/-- **C42 (mean, map back).** -/
theorem C42_mean_map_back (data : List α) (dst : List Int) (mode : Mode) (hl : dst.length = data.length) :
    scatterMean data (some dst) none none true mode =
      .ok (dst.map fun j => (((dst.count j : ℕ) : ℝ)⁻¹ • (pick j dst data).sum)) := by
  unfold scatterMean
  simp only [scatterOp_back _ _ _ _ _ hl, scatterOp_back _ _ (List.replicate data.length 1) dst mode (by simp [hl]),
    Option.isSome_some, true_or, if_true, bind, Except.bind, pure, Except.pure, foldl_add, zero_add, Nat.zero_add, pick_ones _ dst data.length hl]
  congr 1
  unfold divide
  rw [List.zipWith_map, List.zipWith_self]
  apply List.map_congr_left
  intro j hj
  rw [max_eq_right (List.count_pos_iff.mpr hj)]

/-- Position `j` of segment `i`. -/
theorem segments_get (nel : List Nat) (k i j : Nat) (hi : i < nel.length) (hj : j < nel.getD i 0) :
    (segments nel k)[(nel.take i).sum + j]? = some ((k + i : Nat) : Int) := by
  induction nel generalizing k i with
  | nil => simp at hi
  | cons m nel ih =>
    rw [segments_cons]
    cases i with
    | zero =>
      have hj : j < m := by simpa using hj
      rw [List.take_zero, List.sum_nil, Nat.zero_add, List.getElem?_append_left (by simpa using hj), List.getElem?_replicate, if_pos hj]
      rfl
    | succ i =>
      rw [List.take_succ_cons, List.sum_cons, List.getElem?_append_right (by rw [List.length_replicate]; omega), List.length_replicate,
        show m + (nel.take i).sum + j - m = (nel.take i).sum + j by omega, ih (k + 1) i (by simpa using hi) (by simpa using hj)]
      congr 2; omega

/-- **C42 (segments, map back).** Every entry receives the sum of its segment. -/
theorem C42_nel_map_back (data : List α) (nel : List Nat) (mode : Mode) (h : nel.sum = data.length) :
    ∃ out, scatterSum data none (some nel) none true mode = .ok out ∧ out.length = data.length ∧
      ∀ i j, i < nel.length → j < nel.getD i 0 →
        out[(nel.take i).sum + j]? = some ((data.drop (nel.take i).sum).take (nel.getD i 0)).sum := by
  have e : scatterSum data none (some nel) none true mode = scatterSum data (some (segments nel 0)) none none true mode := by
    show scatterOp.go (· + ·) 0 data true mode (repeatTotal ((List.range nel.length).map Int.ofNat) nel data.length) none = _
    rw [← h, repeat_segments]
    rfl
  rw [e, C42_map_back _ _ _ (by rw [segments_length, h])]
  refine ⟨_, rfl, by rw [List.length_map, segments_length, h], fun i j hi hj => ?_⟩
  rw [List.getElem?_map, segments_get nel 0 i j hi hj, Option.map_some, segments_pick nel 0 data h.symm i hi]

theorem repeat_get {β : Type} (a : List β) (nel : List Nat) (h : nel.length = a.length) (i j : Nat) (hi : i < nel.length) (hj : j < nel.getD i 0) :
    ((a.zip nel).flatMap fun p => List.replicate p.2 p.1)[(nel.take i).sum + j]? = a[i]? := by
  induction nel generalizing a i with
  | nil => simp at hi
  | cons m nel ih =>
    cases a with
    | nil => simp at h
    | cons b a =>
      rw [List.zip_cons_cons, List.flatMap_cons]
      cases i with
      | zero =>
        have hj : j < m := by simpa using hj
        rw [List.take_zero, List.sum_nil, Nat.zero_add, List.getElem?_append_left (by simpa using hj), List.getElem?_replicate, if_pos hj]
        rfl
      | succ i =>
        rw [List.take_succ_cons, List.sum_cons, List.getElem?_append_right (by rw [List.length_replicate]; omega), List.length_replicate,
          show m + (nel.take i).sum + j - m = (nel.take i).sum + j by omega, ih a (by simpa using h) i (by simpa using hi) (by simpa using hj)]
        rfl

/-- **C42 (mean of segments, map back).** -/
theorem C42_mean_nel_map_back (data : List α) (nel : List Nat) (mode : Mode) (h : nel.sum = data.length) :
    ∃ out, scatterMean data none (some nel) none true mode = .ok out ∧ out.length = data.length ∧
      ∀ i j, i < nel.length → j < nel.getD i 0 →
        out[(nel.take i).sum + j]? = some (((nel.getD i 0 : ℕ) : ℝ)⁻¹ • ((data.drop (nel.take i).sum).take (nel.getD i 0)).sum) := by
  obtain ⟨out, h1, h2, h3⟩ := C42_mean_nel data nel mode h
  obtain ⟨tot, t1, t2, t3⟩ := C42_nel data nel mode h
  unfold scatterSum at t1
  have e : scatterMean data none (some nel) none false mode = .ok (divide tot nel) := by
    unfold scatterMean
    simp [t1, bind, Except.bind, pure, Except.pure]
  rw [e] at h1
  injection h1 with h1
  refine ⟨repeatTotal (divide tot nel) nel data.length, ?_, ?_, ?_⟩
  · unfold scatterMean
    simp [t1, bind, Except.bind, pure, Except.pure]
  · rw [← h, h1, repeatTotal_exact _ _ h2.symm, repeatTotal_exact.len _ _ h2.symm]
  · intro i j hi hj
    rw [← h, h1, repeatTotal_exact _ _ h2.symm, repeat_get _ _ h2.symm i j hi hj, h3 i hi]

/-- **C42 (max).** Entry `i` is the maximum of the initial value and the entries with index `i`: it is
one of them and none is larger. -/
theorem C42_max {β : Type} [LinearOrder β] (initial : β) (data : List β) (dst : List Int) (n : Nat) (mode : Mode)
    (hl : dst.length = data.length) (hr : InRange dst n) :
    ∃ out, scatterMax true initial data (some dst) none (some n) false mode = .ok out ∧ out.length = n ∧
      ∀ i, i < n → ∃ m, out[i]? = some m ∧ m ∈ initial :: pick i dst data ∧ ∀ b ∈ initial :: pick i dst data, b ≤ m := by
  obtain ⟨out, h1, h2, h3⟩ := scatterOp_dst max initial data dst n mode hl hr
  refine ⟨out, h1, h2, fun i hi => ⟨_, h3 i hi, ?_⟩⟩
  generalize pick (i : Int) dst data = l
  clear h3 h1 h2
  induction l generalizing initial with
  | nil => simp
  | cons b l ih =>
    rw [List.foldl_cons]
    obtain ⟨m1, m2⟩ := ih (max initial b)
    constructor
    · rcases List.mem_cons.mp m1 with e | e
      · rw [e]
        rcases max_choice initial b with e' | e' <;> rw [e'] <;> simp
      · exact List.mem_cons_of_mem _ (List.mem_cons_of_mem _ e)
    · intro c hc
      have hm := m2 (max initial b) (by simp)
      rcases List.mem_cons.mp hc with rfl | hc
      · exact le_trans (le_max_left _ _) hm
      · rcases List.mem_cons.mp hc with rfl | hc
        · exact le_trans (le_max_right _ _) hm
        · exact m2 c (List.mem_cons_of_mem _ hc)

/-- **C42 (refusals).** Exactly the documented combinations of arguments are accepted: one of `dst` and
`nel`; `output_size` with `dst` and without `map_back` only; `dst` of the length of the data; and
`scatter_max` only scalars. -/
theorem C42_refusals (data : List α) (dst : List Int) (nel : List Nat) (n : Nat) (back : Bool) (mode : Mode) :
    scatterSum data none none (some n) back mode = .error .valueError ∧
    scatterSum data (some dst) (some nel) (some n) back mode = .error .valueError ∧
    scatterSum data none (some nel) (some n) back mode = .error .valueError ∧
    (dst.length ≠ data.length → scatterSum data (some dst) none (some n) back mode = .error .valueError) ∧
    scatterSum data (some dst) none none false mode = .error .valueError ∧
    scatterSum data (some dst) none (some n) true mode = .error .valueError ∧
    scatterMax false 0 [(1 : ℝ)] (some dst) none (some n) back mode = .error .valueError := by
  refine ⟨rfl, rfl, rfl, ?_, ?_, ?_, rfl⟩
  · intro h
    show scatterOp.go (· + ·) 0 data back mode dst (some n) = _
    unfold scatterOp.go
    rw [if_pos h]
  · show scatterOp.go (· + ·) 0 data false mode dst none = _
    unfold scatterOp.go
    split <;> rfl
  · show scatterOp.go (· + ·) 0 data true mode dst (some n) = _
    unfold scatterOp.go
    split <;> rfl

/-- The hypotheses are met by an example with repeated, missing and unsorted indices. -/
theorem C42_concrete : InRange [2, 0, 2] 4 ∧ pick 2 [2, 0, 2] [(1 : ℝ), 2, 3] = [1, 3] ∧ pick 1 [2, 0, 2] [(1 : ℝ), 2, 3] = [] := by
  refine ⟨?_, rfl, rfl⟩
  intro i hi
  simp at hi
  omega

end
end E3nn.Scatter

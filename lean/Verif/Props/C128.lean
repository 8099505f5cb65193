import Verif.Model.AtIndex
import Verif.Props.C126

/-!
# C128: `x.at[index].set(values)` and `x.at[index].add(values)`
-/

namespace E3nn.Ndx

open E3nn.Shp (IsIdx isIdx_append)

variable {α : Type}

/-- Every stride is positive. -/
def PosStep (r : List Act) : Prop := ∀ a n st, Act.range a n st ∈ r → 0 < st

theorem resolve_pos : ∀ (l : List Ix) (s : List ℕ) (r : List Act), resolve l s = .ok r → PosStep r
  | [], [], r, h => by
    simp only [resolve, Except.ok.injEq] at h
    subst h; intro a n st hh; simp at hh
  | [], n :: s, r, h => by simp [resolve] at h
  | .newaxis :: l, s, r, h => by
    simp only [resolve] at h
    cases h' : resolve l s with
    | error e => rw [h'] at h; simp [Except.map] at h
    | ok r' =>
      rw [h'] at h
      simp only [Except.map, Except.ok.injEq] at h
      subst h
      intro a n st hh
      exact resolve_pos l s r' h' a n st (by simpa using hh)
  | .ellipsis :: l, s, r, h => by cases s <;> simp [resolve] at h
  | .int k :: l, [], r, h => by simp [resolve] at h
  | .int k :: l, n :: s, r, h => by
    simp only [resolve] at h
    split_ifs at h with hk
    cases h' : resolve l s with
    | error e => rw [h'] at h; simp [Except.map] at h
    | ok r' =>
      rw [h'] at h
      simp only [Except.map, Except.ok.injEq] at h
      subst h
      intro a n st hh
      exact resolve_pos l s r' h' a n st (by simpa using hh)
  | .slice a b st :: l, [], r, h => by simp [resolve] at h
  | .slice a b st :: l, n :: s, r, h => by
    simp only [resolve] at h
    split_ifs at h with hst
    cases h' : resolve l s with
    | error e => rw [h'] at h; simp [Except.map] at h
    | ok r' =>
      rw [h'] at h
      simp only [Except.map, Except.ok.injEq] at h
      subst h
      intro a' n' st' hh
      rcases List.mem_cons.mp hh with h1 | h1
      · cases h1; omega
      · exact resolve_pos l s r' h' _ _ _ h1

theorem fwd_pick (k : ℕ) (r : List Act) (b : ℕ) (p : List ℕ) : fwd (.pick k :: r) (b :: p) = if b = k then fwd r p else none := rfl

theorem fwd_range (a n st : ℕ) (r : List Act) (b : ℕ) (p : List ℕ) : fwd (.range a n st :: r) (b :: p) =
    if a ≤ b ∧ (b - a) % st = 0 ∧ (b - a) / st < n then (fwd r p).map ((b - a) / st :: ·) else none := rfl

/-- The position shown at `i` is shown at `i` only. -/
theorem fwd_back : ∀ (r : List Act), PosStep r → ∀ i, IsIdx (outShape r) i → fwd r (back r i) = some i
  | [], _, i, hi => by cases hi; rfl
  | .new :: r, hp, i, hi => by
    simp only [outShape] at hi
    cases hi with
    | @cons k _ i' _ h1 h2 =>
      have : k = 0 := by omega
      subst this
      simp only [back, List.tail_cons, fwd]
      rw [fwd_back r (fun a n st h => hp a n st (List.mem_cons_of_mem _ h)) i' h2]
      rfl
  | .pick k :: r, hp, i, hi => by
    rw [back, fwd_pick, if_pos rfl]
    exact fwd_back r (fun a n st h => hp a n st (List.mem_cons_of_mem _ h)) i hi
  | .range a n st :: r, hp, i, hi => by
    have hst := hp a n st (by simp)
    simp only [outShape] at hi
    cases hi with
    | @cons k _ i' _ h1 h2 =>
      rw [back, List.headD_cons, List.tail_cons, fwd_range]
      have e1 : a + k * st - a = k * st := by omega
      rw [e1, Nat.mul_mod_left, Nat.mul_div_cancel _ hst, if_pos ⟨by omega, rfl, h1⟩,
        fwd_back r (fun a n st h => hp a n st (List.mem_cons_of_mem _ h)) i' h2]
      rfl

/-- A position that is found is shown there. -/
theorem fwd_some : ∀ (r : List Act), PosStep r → ∀ p i, p.length = r.countP (· ≠ .new) → fwd r p = some i → IsIdx (outShape r) i ∧ back r i = p
  | [], _, p, i, hl, h => by
    have : p = [] := by simpa using hl
    subst this
    simp only [fwd, Option.some.injEq] at h
    subst h
    exact ⟨List.Forall₂.nil, rfl⟩
  | .new :: r, hp, p, i, hl, h => by
    simp only [fwd, Option.map_eq_some_iff] at h
    obtain ⟨i', h1, rfl⟩ := h
    obtain ⟨h2, h3⟩ := fwd_some r (fun a n st h => hp a n st (List.mem_cons_of_mem _ h)) p i' (by simpa [List.countP_cons] using hl) h1
    exact ⟨List.Forall₂.cons (by omega) h2, h3⟩
  | .pick k :: r, hp, p, i, hl, h => by
    match p, hl with
    | q :: p, hl =>
      rw [fwd_pick] at h
      split_ifs at h with hq
      obtain ⟨h2, h3⟩ := fwd_some r (fun a n st h => hp a n st (List.mem_cons_of_mem _ h)) p i (by simpa [List.countP_cons] using hl) h
      exact ⟨h2, by simp [back, h3, hq]⟩
    | [], hl => simp [List.countP_cons] at hl
  | .range a n st :: r, hp, p, i, hl, h => by
    match p, hl with
    | q :: p, hl =>
      rw [fwd_range] at h
      split_ifs at h with hq
      simp only [Option.map_eq_some_iff] at h
      obtain ⟨i', h1, rfl⟩ := h
      obtain ⟨h2, h3⟩ := fwd_some r (fun a n st h => hp a n st (List.mem_cons_of_mem _ h)) p i' (by simpa [List.countP_cons] using hl) h1
      refine ⟨List.Forall₂.cons hq.2.2 h2, ?_⟩
      simp only [back, List.headD_cons, List.tail_cons, h3, List.cons.injEq, and_true]
      rw [Nat.div_mul_cancel (Nat.dvd_of_mod_eq_zero hq.2.1)]
      omega
    | [], hl => simp [List.countP_cons] at hl

theorem fwd_append : ∀ (r q : List Act) (p u : List ℕ), p.length = r.countP (· ≠ .new) →
    fwd (r ++ q) (p ++ u) = (fwd r p).bind fun i => (fwd q u).map (i ++ ·)
  | [], q, p, u, hl => by
    have : p = [] := by simpa using hl
    subst this
    simp [fwd]
  | .new :: r, q, p, u, hl => by
    have := fwd_append r q p u (by simpa [List.countP_cons] using hl)
    simp only [List.cons_append, fwd, this]
    cases fwd r p <;> cases fwd q u <;> simp
  | .pick k :: r, q, [], u, hl => by simp [List.countP_cons] at hl
  | .pick k :: r, q, b :: p, u, hl => by
    have := fwd_append r q p u (by simpa [List.countP_cons] using hl)
    rw [List.cons_append, List.cons_append, fwd_pick, fwd_pick, this]
    split_ifs <;> simp
  | .range a n st :: r, q, [], u, hl => by simp [List.countP_cons] at hl
  | .range a n st :: r, q, b :: p, u, hl => by
    have := fwd_append r q p u (by simpa [List.countP_cons] using hl)
    rw [List.cons_append, List.cons_append, fwd_range, fwd_range, this]
    split_ifs
    · cases fwd r p <;> cases fwd q u <;> simp
    · simp

theorem resolve_count : ∀ (l : List Ix) (s : List ℕ) (r : List Act), resolve l s = .ok r → r.countP (· ≠ .new) = s.length
  | [], [], r, h => by
    simp only [resolve, Except.ok.injEq] at h
    subst h; rfl
  | [], n :: s, r, h => by simp [resolve] at h
  | .newaxis :: l, s, r, h => by
    simp only [resolve] at h
    cases h' : resolve l s with
    | error e => rw [h'] at h; simp [Except.map] at h
    | ok r' =>
      rw [h'] at h
      simp only [Except.map, Except.ok.injEq] at h
      subst h
      simpa [List.countP_cons] using resolve_count l s r' h'
  | .ellipsis :: l, s, r, h => by cases s <;> simp [resolve] at h
  | .int k :: l, [], r, h => by simp [resolve] at h
  | .int k :: l, n :: s, r, h => by
    simp only [resolve] at h
    split_ifs at h with hk
    cases h' : resolve l s with
    | error e => rw [h'] at h; simp [Except.map] at h
    | ok r' =>
      rw [h'] at h
      simp only [Except.map, Except.ok.injEq] at h
      subst h
      simpa [List.countP_cons] using resolve_count l s r' h'
  | .slice a b st :: l, [], r, h => by simp [resolve] at h
  | .slice a b st :: l, n :: s, r, h => by
    simp only [resolve] at h
    split_ifs at h with hst
    cases h' : resolve l s with
    | error e => rw [h'] at h; simp [Except.map] at h
    | ok r' =>
      rw [h'] at h
      simp only [Except.map, Except.ok.injEq] at h
      subst h
      simpa [List.countP_cons] using resolve_count l s r' h'

/-- The indices for which the library finds the irreps axis: without `None`, or with `...`, or with fewer entries than axes, or ending in `:`. -/
def AtSupported (idx : List Ix) (n : ℕ) : Prop :=
  .newaxis ∉ idx ∨ .ellipsis ∈ idx ∨ idx.length ≤ n ∨ idx.getLast? = some full

theorem atGuard_pass {idx l : List Ix} {n : ℕ} (h : LeavesIrreps idx n l) (hs : AtSupported idx n) (hne : idx ≠ []) : atGuard (n + 1) idx = none := by
  have hs' : Supported idx n := by
    rcases hs with h | h | h | h
    · exact Or.inl h
    · exact Or.inr (Or.inl h)
    · exact Or.inr (Or.inr (Or.inl h))
    · exact Or.inr (Or.inr (Or.inr (Or.inl h)))
  obtain ⟨init, E, rfl⟩ : ∃ init E, idx = init ++ [E] := ⟨_, _, (List.dropLast_append_getLast hne).symm⟩
  obtain ⟨g1, g2⟩ := guards h hs' rfl
  have g3 : ((init ++ [E]).length = n + 1 ∨ Ix.ellipsis ∈ init) → E = .ellipsis ∨ E = full := by
    intro hh
    rcases g1 hh with h1 | h1 | h1
    · exact Or.inl h1
    · exact Or.inr h1
    · exfalso
      subst h1
      have hni : Ix.ellipsis ∉ init := fun hi => g2 ⟨Or.inr hi, rfl⟩
      rcases hh with hh | hh
      · rcases hs with h4 | h4 | h4 | h4
        · exact h4 (by simp)
        · simp [hni] at h4
        · omega
        · simp [full] at h4
      · exact hni hh
  unfold atGuard
  simp only [List.getLast?_append, List.getLast?_singleton, Option.some_or, List.dropLast_concat]
  rw [if_neg, if_neg]
  · rintro ⟨h1 | h1, h2⟩
    · exact h2 (g3 (Or.inl h1))
    · rcases List.mem_append.mp h1 with h3 | h3
      · exact h2 (g3 (Or.inr h3))
      · exact h2 (Or.inl (List.mem_singleton.mp h3).symm)
  · cases E with
    | int k => simp
    | newaxis => simp
    | ellipsis => simp
    | slice a b st =>
      cases st with
      | some k => simp
      | none =>
        simp only [Bool.and_eq_true, decide_eq_true_eq, Bool.or_eq_true, not_and]
        intro h1
        rcases g3 h1.symm with h2 | h2
        · cases h2
        · simp only [full, Ix.slice.injEq] at h2
          obtain ⟨rfl, rfl, -⟩ := h2
          simp

/-- `x.at[index].set(values)` (`op old new = new`) and `x.at[index].add(values)` (`op = (+)`): the irreps are kept, all views agree, reading the same index
gives the updated values, and a position changes only if the index selects it (for every array of this shape, the entry at `p` is one of the entries of
`array[index]`). -/
theorem C128_update [Zero α] (rechunk : NI α → Irreps → Except PyErr (NI α)) (op : α → α → α) (hop : op 0 0 = 0) (x : NI α) (lead : List ℕ)
    (hx : Good lead x) (idx l : List Ix) (hne : idx ≠ []) (h : LeavesIrreps idx lead.length l) (hs : AtSupported idx lead.length)
    (a : ND α) (ha : npIndex x.array idx = .ok a) (values v : NI α) (hsimp : x.irreps.simplify = values.irreps.simplify)
    (hre : rechunk values x.irreps = .ok v) (hvi : v.irreps = x.irreps) (lead' : List ℕ) (hv : Good lead' v) (hsh : v.array.shape = a.shape) :
    ∃ y, atOp rechunk op x idx values = .ok y ∧ y.irreps = x.irreps ∧ Good lead y ∧
      y.flags = List.zipWith (· && ·) x.flags v.flags ∧
      (∃ b, npIndex y.array idx = .ok b ∧ b.shape = a.shape ∧ ∀ i, IsIdx a.shape i → b.get i = op (a.get i) (v.array.get i)) ∧
      ∀ p, IsIdx x.array.shape p → y.array.get p = x.array.get p ∨
        ∃ i, IsIdx a.shape i ∧ ∀ z b : ND α, z.shape = x.array.shape → npIndex z idx = .ok b → b.get i = z.get p := by
  have hlen : x.array.shape.length = lead.length + 1 := by rw [hx.shape]; simp
  have hexp : expandIx idx x.array.shape.length = .ok (l ++ [full]) := by rw [hlen]; exact h.1
  obtain ⟨R, hR⟩ : ∃ R, resolve (l ++ [full]) x.array.shape = .ok R := by
    unfold npIndex at ha
    rw [hexp] at ha
    cases hr : resolve (l ++ [full]) x.array.shape with
    | error e => simp only [hr] at ha; cases ha
    | ok R => exact ⟨R, rfl⟩
  have hidx : ∀ z : ND α, z.shape = x.array.shape → npIndex z idx = .ok ⟨outShape R, fun i => z.get (back R i)⟩ := by
    intro z hz
    unfold npIndex
    rw [hz, hexp]
    simp only [hR]
  have ha' : a = ⟨outShape R, fun i => x.array.get (back R i)⟩ := by
    have := hidx x.array rfl
    rw [ha] at this
    exact Except.ok.inj this
  have hpos := resolve_pos _ _ _ hR
  have hcnt := resolve_count _ _ _ hR
  have hup : npUpdate op x.array idx v.array = .ok ⟨x.array.shape, updGet op x.array v.array R⟩ := by
    unfold npUpdate
    rw [hexp]
    simp only [hR]
    rw [if_neg (by rw [hsh, ha']; simp)]
  have hlf : (List.zipWith (· && ·) x.flags v.flags).length = x.irreps.length := by
    rw [List.length_zipWith, hx.flags, hv.flags, hvi]; simp
  refine ⟨⟨x.irreps, ⟨x.array.shape, updGet op x.array v.array R⟩, List.zipWith (· && ·) x.flags v.flags, none⟩, ?_, rfl, ⟨hx.shape, hlf, by rintro cs ⟨⟩, ?_⟩, rfl, ?_, ?_⟩
  · unfold atOp
    rw [hlen, atGuard_pass h hs hne]
    simp only
    rw [if_neg (by simpa using hsimp), hre]
    simp only
    rw [hup]
    simp only [mk']
    rw [if_neg (by rw [hx.shape, Irreps.dim_eq_dimOf_expand]; simp), if_neg (by simp), if_neg (by simpa using hlf), if_neg (by simp)]
  · intro t m hm hf i hi j e hj he
    simp only at hm hf ⊢
    rw [List.getElem?_zipWith_eq_some] at hf
    obtain ⟨f1, f2, e1, e2, e3⟩ := hf
    have f1t : f1 = true := by cases f1 <;> simp_all
    have f2t : f2 = true := by cases f2 <;> simp_all
    subst f1t f2t
    have hx0 := hx.zero t m hm e1 i hi j e hj he
    unfold updGet
    rw [hx0]
    have hR' := resolve_append l lead h.2 _ _ _ (resolve_fulls [dimOf (expand x.irreps)])
    cases hr : resolve l lead with
    | error e =>
      rw [hx.shape] at hR
      simp only [List.length_singleton, List.replicate_one] at hR'
      rw [hR', hr] at hR
      cases hR
    | ok r =>
      rw [hx.shape] at hR
      simp only [List.length_singleton, List.replicate_one] at hR'
      rw [hR', hr] at hR
      simp only [Except.map, Except.ok.injEq] at hR
      subst hR
      have hil := List.Forall₂.length_eq hi
      rw [fwd_append _ _ _ _ (by rw [resolve_count l lead r hr]; exact hil)]
      cases hfw : fwd r i with
      | none => rfl
      | some i0 =>
        have hi0 := (fwd_some r (resolve_pos l lead r hr) i i0 (by rw [resolve_count l lead r hr]; exact hil) hfw).1
        simp only [Option.bind_some]
        have hl' : lead' = outShape r := by
          have := hv.shape
          rw [hsh, ha'] at this
          simp only [outShape_append] at this
          exact (List.append_inj' this.symm rfl).1
        have hv0 := hv.zero t m (by rw [hvi]; exact hm) e2 i0 (by rw [hl']; exact hi0) j e hj he
        rw [hvi] at hv0
        rw [List.map_cons, List.map_nil, fwd_range]
        split_ifs
        · simp only [fwd, Option.map_some, Nat.sub_zero, Nat.div_one]
          rw [hv0]
          exact hop
        · rfl
  · refine ⟨_, hidx _ rfl, by rw [ha'], ?_⟩
    intro i hi
    rw [ha'] at hi ⊢
    simp only [updGet] at hi ⊢
    rw [fwd_back R hpos i hi]
  · intro p hp
    simp only [updGet]
    cases hfw : fwd R p with
    | none => left; rfl
    | some i =>
      right
      have := fwd_some R hpos p i (by rw [hcnt]; exact List.Forall₂.length_eq hp) hfw
      refine ⟨i, by rw [ha']; exact this.1, ?_⟩
      intro z b hz hb
      rw [hidx z hz] at hb
      cases hb
      simp only [this.2]

/-- An integer on the irreps axis is refused with IndexError, and a slice of the irreps axis with NotImplementedError. -/
theorem C128_refuse (rechunk : NI α → Irreps → Except PyErr (NI α)) (op : α → α → α) (x : NI α) (init : List Ix) (values : NI α)
    (h : init.length + 1 = x.array.shape.length ∨ Ix.ellipsis ∈ init) :
    (∀ k, atOp rechunk op x (init ++ [.int k]) values = .error .indexError) ∧
    (∀ a b, a.isSome ∨ b.isSome → atOp rechunk op x (init ++ [.slice a b none]) values = .error .notImplemented) := by
  constructor
  · intro k
    have : atGuard x.array.shape.length (init ++ [.int k]) = some .indexError := by
      unfold atGuard
      simp only [List.getLast?_append, List.getLast?_singleton, Option.some_or]
      rw [if_neg (by simp), if_pos]
      refine ⟨?_, by simp [full]⟩
      rcases h with h | h
      · left; simpa using h
      · right; simp [h]
    unfold atOp
    rw [this]
  · intro a b hab
    have : atGuard x.array.shape.length (init ++ [.slice a b none]) = some .notImplemented := by
      unfold atGuard
      simp only [List.getLast?_append, List.getLast?_singleton, Option.some_or, List.dropLast_concat]
      rw [if_pos]
      simp only [Bool.and_eq_true, decide_eq_true_eq, Bool.or_eq_true]
      refine ⟨?_, hab⟩
      rcases h with h | h
      · right; simpa using h
      · left; exact h
    unfold atOp
    rw [this]

/-- Values whose irreps are not equivalent (after `simplify`) are refused with ValueError. -/
theorem C128_irreps (rechunk : NI α → Irreps → Except PyErr (NI α)) (op : α → α → α) (x : NI α) (n : ℕ) (hx : x.array.shape.length = n + 1)
    (idx l : List Ix) (hne : idx ≠ []) (h : LeavesIrreps idx n l) (hs : AtSupported idx n) (values : NI α)
    (hsimp : x.irreps.simplify ≠ values.irreps.simplify) : atOp rechunk op x idx values = .error .valueError := by
  unfold atOp
  rw [hx, atGuard_pass h hs hne]
  simp only
  rw [if_pos hsimp]

/-- The values `[7, 1, 2, 3]` of irreps `0e + 1o`. -/
def wval : NI ℤ := ⟨wit.irreps, ⟨[4], fun i => if i.getD 0 0 = 0 then 7 else i.getD 0 0⟩, [false, false], none⟩

/-- Hypotheses of `C128_update`: `x.at[0].set(values)` for the array `wit` of C126, with the result. -/
theorem C128_witness : Good [] wval ∧ LeavesIrreps [.int 0] 1 [.int 0] ∧ AtSupported [.int 0] 1 ∧
    (∃ a, npIndex wit.array [.int 0] = .ok a ∧ wval.array.shape = a.shape) ∧
    ∃ y, atOp (fun v _ => .ok v) (fun _ n => n) wit [.int 0] wval = .ok y ∧ y.flags = [false, false] ∧
      [y.array.get [0, 0], y.array.get [0, 3], y.array.get [1, 0], y.array.get [1, 3]] = [7, 3, 6, 0] := by
  refine ⟨⟨rfl, rfl, by rintro cs ⟨⟩, ?_⟩, ⟨rfl, rfl⟩, Or.inl (by decide), ⟨_, rfl, rfl⟩, _, rfl, rfl, rfl⟩
  intro t m hm hf
  match t, hf with
  | 0, hf => simp [wval] at hf
  | 1, hf => simp [wval] at hf
  | t + 2, hf => simp [wval] at hf

end E3nn.Ndx

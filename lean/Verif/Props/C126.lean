import Verif.Spec.Index
import Verif.Lemmas.Shape
import Verif.Props.C12_C20

/-!
# C126: `x[index]` on the leading axes
-/

namespace E3nn.Ndx

open E3nn.Shp (IsIdx isIdx_append)

variable {α : Type}

theorem fill_succ (n : ℕ) : List.replicate n full ++ [full] = full :: List.replicate n full := by
  rw [← List.replicate_succ', List.replicate_succ]

/-- The index for the chunks, with one more `:`. -/
theorem expand_chunk {idx l : List Ix} {nd : ℕ} (h : expandIx idx nd = .ok l) : expandIx (idx ++ [full]) (nd + 1) = .ok (l ++ [full]) := by
  unfold expandIx at h ⊢
  have hc : (idx ++ [full]).countP consumes = idx.countP consumes + 1 := by simp [full, consumes]
  have he : (idx ++ [full]).count .ellipsis = idx.count .ellipsis := by simp [full]
  have hm : (Ix.ellipsis ∈ idx ++ [full]) ↔ Ix.ellipsis ∈ idx := by simp [full]
  rw [hc, he]
  simp only [hm]
  split_ifs at h with h1 h2 h3
  · simp only [Except.ok.injEq] at h
    rw [if_neg h1, if_neg (by omega), if_pos h3, ← h]
    simp [full]
  · simp only [Except.ok.injEq] at h
    rw [if_neg h1, if_neg (by omega), if_neg h3, ← h]
    rw [show nd + 1 - (idx.countP consumes + 1) = nd - idx.countP consumes by omega, List.append_assoc, List.append_assoc, fill_succ]
    rfl

theorem resolve_full (n : ℕ) (s : List ℕ) (r : List Ix) : resolve (full :: r) (n :: s) = (resolve r s).map (.range 0 n 1 :: ·) := by
  simp [resolve, full]

/-- Entries that use up the axes `s`, then more entries. -/
theorem resolve_append : ∀ (l : List Ix) (s : List ℕ), l.countP consumes = s.length → ∀ (m : List Ix) (u : List ℕ) (q : List Act), resolve m u = .ok q →
    resolve (l ++ m) (s ++ u) = (resolve l s).map (· ++ q)
  | [], s, h, m, u, q, hq => by
    have : s = [] := by simpa using h.symm
    subst this
    simp [resolve, hq, Except.map]
  | .newaxis :: l, s, h, m, u, q, hq => by
    have := resolve_append l s (by simpa [consumes, List.countP_cons] using h) m u q hq
    simp only [List.cons_append, resolve, this]
    cases resolve l s <;> simp [Except.map]
  | .ellipsis :: l, s, h, m, u, q, hq => by
    cases s <;> simp [resolve, Except.map]
  | .int k :: l, [], h, m, u, q, hq => by simp [consumes] at h
  | .int k :: l, n :: s, h, m, u, q, hq => by
    have := resolve_append l s (by simpa [consumes, List.countP_cons] using h) m u q hq
    simp only [List.cons_append, resolve, this]
    split_ifs
    · cases resolve l s <;> simp [Except.map]
    · simp [Except.map]
  | .slice a b st :: l, [], h, m, u, q, hq => by simp [consumes] at h
  | .slice a b st :: l, n :: s, h, m, u, q, hq => by
    have := resolve_append l s (by simpa [consumes, List.countP_cons] using h) m u q hq
    simp only [List.cons_append, resolve, this]
    split_ifs
    · simp [Except.map]
    · cases resolve l s <;> simp [Except.map]

theorem outShape_append (r q : List Act) : outShape (r ++ q) = outShape r ++ outShape q := by
  induction r with
  | nil => rfl
  | cons a r ih => cases a <;> simp [outShape, ih]

theorem back_append : ∀ (r q : List Act) (i j : List ℕ), i.length = (outShape r).length → back (r ++ q) (i ++ j) = back r i ++ back q j
  | [], q, i, j, h => by
    have : i = [] := by simpa [outShape] using h
    subst this; rfl
  | .new :: r, q, [], j, h => by simp [outShape] at h
  | .new :: r, q, k :: i, j, h => by
    simp only [List.cons_append, back, List.tail_cons]
    exact back_append r q i j (by simpa [outShape] using h)
  | .pick k :: r, q, i, j, h => by
    simp only [List.cons_append, back]
    rw [back_append r q i j (by simpa [outShape] using h)]
  | .range a n st :: r, q, [], j, h => by simp [outShape] at h
  | .range a n st :: r, q, k :: i, j, h => by
    simp only [List.cons_append, back, List.tail_cons, List.headD_cons]
    rw [back_append r q i j (by simpa [outShape] using h)]

theorem adjust_le (n : ℕ) (k : Int) : adjustIndex n k ≤ n := by
  unfold adjustIndex
  split_ifs <;> omega

theorem stop_le (n : ℕ) (b : Option Int) : (b.map (adjustIndex n)).getD n ≤ n := by
  cases b with
  | none => simp
  | some k => simpa using adjust_le n k

/-- The positions shown are positions of the array. -/
theorem back_isIdx : ∀ (l : List Ix) (s : List ℕ) (r : List Act), resolve l s = .ok r → ∀ i, IsIdx (outShape r) i → IsIdx s (back r i)
  | [], [], r, h, i, hi => by
    simp only [resolve, Except.ok.injEq] at h
    subst h
    exact List.Forall₂.nil
  | [], n :: s, r, h, i, hi => by simp [resolve] at h
  | .newaxis :: l, s, r, h, i, hi => by
    simp only [resolve] at h
    cases h' : resolve l s with
    | error e => rw [h'] at h; simp [Except.map] at h
    | ok r' =>
      rw [h'] at h
      simp only [Except.map, Except.ok.injEq] at h
      subst h
      simp only [outShape] at hi
      cases hi with
      | cons h1 h2 => exact back_isIdx l s r' h' _ h2
  | .ellipsis :: l, s, r, h, i, hi => by
    cases s <;> simp [resolve] at h
  | .int k :: l, [], r, h, i, hi => by simp [resolve] at h
  | .int k :: l, n :: s, r, h, i, hi => by
    simp only [resolve] at h
    split_ifs at h with hk
    cases h' : resolve l s with
    | error e => rw [h'] at h; simp [Except.map] at h
    | ok r' =>
      rw [h'] at h
      simp only [Except.map, Except.ok.injEq] at h
      subst h
      simp only [outShape] at hi
      refine List.Forall₂.cons ?_ (back_isIdx l s r' h' _ hi)
      have h1 := Int.emod_lt_of_pos k (show (0 : Int) < n by omega)
      have h2 := Int.emod_nonneg k (show (n : Int) ≠ 0 by omega)
      omega
  | .slice a b st :: l, [], r, h, i, hi => by simp [resolve] at h
  | .slice a b st :: l, n :: s, r, h, i, hi => by
    simp only [resolve] at h
    split_ifs at h with hst
    cases h' : resolve l s with
    | error e => rw [h'] at h; simp [Except.map] at h
    | ok r' =>
      rw [h'] at h
      simp only [Except.map, Except.ok.injEq] at h
      subst h
      simp only [outShape] at hi
      cases hi with
      | @cons k _ i' _ h1 h2 =>
        refine List.Forall₂.cons ?_ (back_isIdx l s r' h' _ h2)
        simp only [List.headD_cons]
        have hs := stop_le n b
        set start := (a.map (adjustIndex n)).getD 0
        set stop := (b.map (adjustIndex n)).getD n
        set step := st.getD 1
        have h3 : (k + 1) * step ≤ stop - start + (step - 1) := (Nat.le_div_iff_mul_le (by omega)).mp h1
        rw [Nat.add_mul] at h3
        omega

theorem resolve_fulls : ∀ s : List ℕ, resolve (List.replicate s.length full) s = .ok (s.map fun n => .range 0 n 1)
  | [] => rfl
  | n :: s => by
    rw [List.length_cons, List.replicate_succ, resolve_full, resolve_fulls s]
    rfl

theorem outShape_fulls (s : List ℕ) : outShape (s.map fun n => .range 0 n 1) = s := by
  induction s with
  | nil => rfl
  | cons n s ih => simp [outShape, ih]

theorem back_fulls : ∀ (s i : List ℕ), i.length = s.length → back (s.map fun n => .range 0 n 1) i = i
  | [], i, h => by
    have : i = [] := by simpa using h
    subst this; rfl
  | n :: s, [], h => by simp at h
  | n :: s, k :: i, h => by
    simp only [List.map_cons, back, List.headD_cons, List.tail_cons]
    rw [back_fulls s i (by simpa using h)]
    simp

/-- Indexing an array of shape `lead + u` by an index which is `l` on `lead` and `:` on `u`. -/
theorem npIndex_tail {idx l : List Ix} {lead u : List ℕ} {a : ND α} (ha : a.shape = lead ++ u)
    (he : expandIx idx (lead.length + u.length) = .ok (l ++ List.replicate u.length full)) (hl : l.countP consumes = lead.length) :
    (∀ r, resolve l lead = .ok r → npIndex a idx = .ok ⟨outShape r ++ u, fun i => a.get (back (r ++ u.map fun n => .range 0 n 1) i)⟩) ∧
    (∀ e, resolve l lead = .error e → npIndex a idx = .error e) := by
  have h := resolve_append l lead hl _ _ _ (resolve_fulls u)
  constructor
  · intro r hr
    unfold npIndex
    rw [ha, List.length_append, he]
    simp only
    rw [h, hr]
    simp only [Except.map]
    rw [outShape_append, outShape_fulls]
  · intro e hr
    unfold npIndex
    rw [ha, List.length_append, he]
    simp only
    rw [h, hr]
    rfl

theorem chunksIx_map (idx : List Ix) (g : ND α → ND α) : ∀ cs : List (Option (ND α)), (∀ c, some c ∈ cs → npIndex c (idx ++ [full]) = .ok (g c)) →
    chunksIx idx cs = .ok (cs.map (Option.map g))
  | [], h => rfl
  | none :: cs, h => by
    have := chunksIx_map idx g cs fun c hc => h c (List.mem_cons_of_mem _ hc)
    simp [chunksIx, this, Except.map]
  | some c :: cs, h => by
    have := chunksIx_map idx g cs fun c hc => h c (List.mem_cons_of_mem _ hc)
    simp [chunksIx, this, Except.map, h c (by simp)]

/-- The guards of `__getitem__` let the index pass. -/
theorem guards {idx l : List Ix} {n : ℕ} (h : LeavesIrreps idx n l) (hs : Supported idx n) {init : List Ix} {E : Ix} (hi : idx = init ++ [E]) :
    ((idx.length = n + 1 ∨ Ix.ellipsis ∈ init) → E = .ellipsis ∨ E = full ∨ E = .newaxis) ∧
    ¬ ((init.length = n + 1 ∨ Ix.ellipsis ∈ init) ∧ E = .newaxis) := by
  obtain ⟨h, -⟩ := h
  subst hi
  unfold expandIx at h
  split_ifs at h with h1 h2 h3
  · by_cases hm : Ix.ellipsis ∈ init
    · have hE : E ≠ .ellipsis := by
        rintro rfl
        have := List.count_pos_iff.mpr hm
        have h1' : (init ++ [Ix.ellipsis]).count .ellipsis = init.count .ellipsis + 1 := by simp
        omega
      simp only [Except.ok.injEq, List.flatMap_append, List.flatMap_cons, List.flatMap_nil, List.append_nil, if_neg hE] at h
      have := (List.append_inj' h rfl).2
      have hf : E = full := by simpa using this
      subst hf
      exact ⟨fun _ => by simp, by simp [full]⟩
    · have hE : E = .ellipsis := by
        rcases List.mem_append.mp h3 with h4 | h4
        · exact absurd h4 hm
        · exact (List.mem_singleton.mp h4).symm
      subst hE
      exact ⟨fun _ => by simp, by simp⟩
  · have hm : Ix.ellipsis ∉ init := fun hh => h3 (by simp [hh])
    simp only [List.getLast?_append, Supported, List.getLast?_singleton, Option.some_or, Option.some.injEq] at hs
    constructor
    · rintro (hlen | hh)
      · rcases hs with hs | hs | hs | hs | hs
        · right; left
          have hc : (init ++ [E]).countP consumes = (init ++ [E]).length := by
            rw [List.countP_eq_length]
            intro e he
            cases e with
            | int k => rfl
            | slice a b c => rfl
            | newaxis => exact absurd he hs
            | ellipsis => exact absurd he h3
          rw [hc, hlen] at h
          simp only [Nat.sub_self, List.replicate_zero, List.append_nil, Except.ok.injEq] at h
          simpa using (List.append_inj' h rfl).2
        · exact absurd hs h3
        · omega
        · exact Or.inr (Or.inl hs)
        · exact Or.inr (Or.inr hs.1)
      · exact absurd hh hm
    · rintro ⟨hlen | hh, hE⟩
      · subst hE
        rcases hs with hs | hs | hs | hs | hs
        · exact hs (by simp)
        · exact h3 hs
        · simp at hs; omega
        · simp [full] at hs
        · simp at hs; omega
      · exact hm hh

theorem getitem_plain {idx l : List Ix} {n : ℕ} (h : LeavesIrreps idx n l) (hs : Supported idx n) (hne : idx ≠ [])
    (cut : NI α → Option Int → Option Int → Except PyErr (NI α)) (x : NI α) (hx : x.array.shape.length = n + 1) :
    getitem cut x idx = plain x idx := by
  obtain ⟨init, E, rfl⟩ : ∃ init E, idx = init ++ [E] := ⟨_, _, (List.dropLast_append_getLast hne).symm⟩
  obtain ⟨g1, -⟩ := guards h hs rfl
  unfold getitem
  rw [hx]
  simp only [List.getLast?_append, List.getLast?_singleton, Option.some_or, List.dropLast_concat]
  cases E with
  | int k => rfl
  | newaxis => rfl
  | ellipsis => rfl
  | slice a b st =>
    cases st with
    | some k => rfl
    | none =>
      simp only
      rw [if_neg]
      rintro ⟨g, g'⟩
      have := g1 g
      simp [full] at this
      rcases this with ⟨rfl, rfl⟩
      simp at g'

theorem plain_eq {idx l : List Ix} {n : ℕ} (h : LeavesIrreps idx n l) (hs : Supported idx n) (hne : idx ≠ []) (x : NI α)
    (hx : x.array.shape.length = n + 1) :
    plain x idx = match npIndex x.array idx with
      | .error e => .error e
      | .ok a =>
        match x.chunks? with
        | none => mk' x.irreps a x.flags none
        | some cs =>
          match chunksIx idx cs with
          | .error e => .error e
          | .ok ds => mk' x.irreps a x.flags (some ds) := by
  obtain ⟨init, E, rfl⟩ : ∃ init E, idx = init ++ [E] := ⟨_, _, (List.dropLast_append_getLast hne).symm⟩
  obtain ⟨g1, g2⟩ := guards h hs rfl
  unfold plain
  rw [hx]
  simp only [List.getLast?_append, List.getLast?_singleton, Option.some_or, List.dropLast_concat, Option.some.injEq]
  rw [if_neg g2, if_neg (fun g => g.2 (g1 g.1))]
  cases npIndex x.array (init ++ [E]) with
  | error e => rfl
  | ok a =>
    cases x.chunks? with
    | none => rfl
    | some cs =>
      cases h' : chunksIx (init ++ [E]) cs <;> simp [h']

/-- For every index which leaves the irreps axis alone, `x[index]` is `x.array[index]` with the same irreps and zero flags, and its chunks show the new
array; it raises what `x.array[index]` raises. -/
theorem C126_index [Zero α] (cut : NI α → Option Int → Option Int → Except PyErr (NI α)) (x : NI α) (lead : List ℕ) (hx : Good lead x)
    (idx l : List Ix) (hne : idx ≠ []) (h : LeavesIrreps idx lead.length l) (hs : Supported idx lead.length) :
    (∀ e, npIndex x.array idx = .error e → getitem cut x idx = .error e) ∧
    (∀ a, npIndex x.array idx = .ok a → ∃ y lead', getitem cut x idx = .ok y ∧ y.irreps = x.irreps ∧ y.flags = x.flags ∧ y.array = a ∧
      (y.chunks?.isSome = x.chunks?.isSome) ∧ Good lead' y) := by
  have hlen : x.array.shape.length = lead.length + 1 := by rw [hx.shape]; simp
  rw [getitem_plain h hs hne cut x hlen, plain_eq h hs hne x hlen]
  constructor
  · intro e he; rw [he]
  intro a ha
  obtain ⟨k1, k2⟩ := npIndex_tail (l := l) hx.shape h.1 h.2
  cases hr : resolve l lead with
  | error e => rw [k2 e hr] at ha; cases ha
  | ok r =>
  rw [k1 r hr] at ha
  have hget : ∀ i c, IsIdx (outShape r) i → a.get (i ++ [c]) = x.array.get (back r i ++ [c]) := by
    intro i c hi
    cases ha
    simp only
    rw [back_append _ _ _ _ (List.Forall₂.length_eq hi), back_fulls _ _ (by simp)]
  have hsh : a.shape = outShape r ++ [dimOf (expand x.irreps)] := by cases ha; rfl
  rw [k1 r hr, ha]
  simp only
  have hl1 : ¬ (a.shape ≠ [] ∧ a.shape.getLastD 0 ≠ x.irreps.dim) := by
    rw [hsh, Irreps.dim_eq_dimOf_expand]; simp
  have hzero : ∀ (t : ℕ) (m : MulIrrep), x.irreps[t]? = some m → x.flags[t]? = some true → ∀ i, IsIdx (outShape r) i → ∀ j e, j < m.mul →
      e < 2 * m.ir.l + 1 → a.get (i ++ [offset x.irreps t + j * (2 * m.ir.l + 1) + e]) = 0 := by
    intro t m hm hf i hi j e hj he
    rw [hget i _ hi]
    exact hx.zero t m hm hf _ (back_isIdx l lead r hr i hi) j e hj he
  cases hcs : x.chunks? with
  | none =>
    refine ⟨⟨x.irreps, a, x.flags, none⟩, outShape r, ?_, rfl, rfl, rfl, rfl, ⟨hsh, hx.flags, by rintro cs ⟨⟩, hzero⟩⟩
    simp only [mk']
    rw [if_neg hl1, if_neg (by simp), if_neg (by simpa using hx.flags), if_neg (by simp)]
  | some cs =>
    obtain ⟨c1, c2⟩ := hx.chunks cs hcs
    let g : ND α → ND α := fun c => ⟨outShape r ++ c.shape.drop lead.length, fun i => c.get (back (r ++ (c.shape.drop lead.length).map fun n => .range 0 n 1) i)⟩
    have hshape : ∀ c, some c ∈ cs → ∃ p q, c.shape = lead ++ [p, q] := by
      intro c hc
      obtain ⟨t, ht⟩ := List.mem_iff_getElem?.mp hc
      have htl : t < x.irreps.length := by
        rw [← c1]; exact (List.getElem?_eq_some_iff.mp ht).1
      rcases c2 t _ (List.getElem?_eq_getElem htl) with ⟨-, h2⟩ | ⟨-, c', h2, h3, -⟩
      · rw [ht] at h2; simp at h2
      · rw [ht] at h2
        simp only [Option.some.injEq] at h2
        subst h2
        exact ⟨_, _, h3⟩
    have hch : chunksIx idx cs = .ok (cs.map (Option.map g)) := by
      apply chunksIx_map
      intro c hc
      obtain ⟨p, q, hc'⟩ := hshape c hc
      have he := expand_chunk h.1
      have := (npIndex_tail (l := l) (u := [p, q]) hc' (by simpa [List.replicate] using he) h.2).1 r hr
      rw [this]
      simp [g, hc']
    simp only [hch]
    have hgood : ∀ (t : ℕ) (m : MulIrrep), x.irreps[t]? = some m →
        (x.flags[t]? = some true ∧ (cs.map (Option.map g))[t]? = some none) ∨
        (x.flags[t]? = some false ∧ ∃ c, (cs.map (Option.map g))[t]? = some (some c) ∧ c.shape = outShape r ++ [m.mul, 2 * m.ir.l + 1] ∧
          ∀ i, IsIdx (outShape r) i → ∀ j e, j < m.mul → e < 2 * m.ir.l + 1 →
            c.get (i ++ [j, e]) = a.get (i ++ [offset x.irreps t + j * (2 * m.ir.l + 1) + e])) := by
      intro t m hm
      rcases c2 t m hm with ⟨h1, h2⟩ | ⟨h1, c, h2, h3, h4⟩
      · left; exact ⟨h1, by rw [List.getElem?_map, h2]; rfl⟩
      · right
        refine ⟨h1, g c, by rw [List.getElem?_map, h2]; rfl, by simp [g, h3], ?_⟩
        intro i hi j e hj he
        rw [hget i _ hi, ← h4 _ (back_isIdx l lead r hr i hi) j e hj he]
        simp only [g, h3, List.drop_left]
        rw [back_append _ _ _ _ (List.Forall₂.length_eq hi), back_fulls _ _ (by simp)]
    refine ⟨⟨x.irreps, a, x.flags, some (cs.map (Option.map g))⟩, outShape r, ?_, rfl, rfl, rfl, rfl, ⟨hsh, hx.flags, ?_, hzero⟩⟩
    · simp only [mk', Option.getD_some]
      rw [if_neg hl1, if_neg, if_neg (by simpa using hx.flags), if_neg (by simpa using c1)]
      rintro ⟨-, hn⟩
      apply hn
      rw [List.all_eq_true]
      rintro ⟨m, c⟩ hq
      obtain ⟨t, ht⟩ := List.mem_iff_getElem?.mp hq
      rw [List.getElem?_zip_eq_some] at ht
      rcases hgood t m ht.1 with ⟨-, h2⟩ | ⟨-, c', h2, h3, -⟩
      · have := ht.2.symm.trans h2
        simp only [Option.some.injEq] at this
        subst this
        rfl
      · have := ht.2.symm.trans h2
        simp only [Option.some.injEq] at this
        subst this
        simp [chunkOk, h3, Irrep.dim]
    · rintro cs' ⟨⟩
      exact ⟨by simpa using c1, hgood⟩

/-- `x.chunks` of a good array is a good list of chunks. -/
theorem views_good [Zero α] {x : NI α} {lead : List ℕ} (hx : Good lead x) : Good lead { x with chunks? := some (views x) } := by
  cases hcs : x.chunks? with
  | some cs =>
    have : { x with chunks? := some (views x) } = x := by unfold views; rw [hcs]; cases x; simp at hcs ⊢; exact hcs.symm
    rw [this]; exact hx
  | none =>
    refine ⟨hx.shape, hx.flags, ?_, hx.zero⟩
    rintro cs ⟨⟩
    let F : ℕ → Option (ND α) := fun t =>
        match x.irreps[t]?, x.flags[t]? with
        | some m, some false => some ⟨x.array.shape.dropLast ++ [m.mul, m.ir.dim], fun p =>
            x.array.get (p.dropLast.dropLast ++ [Irreps.dim (x.irreps.take t) + p.dropLast.getLastD 0 * m.ir.dim + p.getLastD 0])⟩
        | _, _ => none
    have hF : ∀ t, F t = match x.irreps[t]?, x.flags[t]? with
        | some m, some false => some ⟨x.array.shape.dropLast ++ [m.mul, m.ir.dim], fun p =>
            x.array.get (p.dropLast.dropLast ++ [Irreps.dim (x.irreps.take t) + p.dropLast.getLastD 0 * m.ir.dim + p.getLastD 0])⟩
        | _, _ => none := fun t => rfl
    have hv : views x = (List.range x.irreps.length).map F := by
      unfold views; rw [hcs]; rfl
    refine ⟨by simp [hv], ?_⟩
    intro t m hm
    simp only at hm ⊢
    have ht : t < x.irreps.length := (List.getElem?_eq_some_iff.mp hm).1
    have hf : x.flags[t]? = some (x.flags[t]'(by rw [hx.flags]; exact ht)) := List.getElem?_eq_getElem _
    rw [hv, List.getElem?_map, List.getElem?_range ht]
    simp only [Option.map_some, hF, hm, hf]
    cases x.flags[t]'(by rw [hx.flags]; exact ht) with
    | true => left; simp
    | false =>
      right
      refine ⟨rfl, _, rfl, by rw [hx.shape]; simp [Irrep.dim], ?_⟩
      intro i hi j e hj he
      have e1 : (i ++ [j, e]).dropLast = i ++ [j] := by rw [List.append_cons, List.dropLast_concat]
      have e2 : (i ++ [j, e]).getLastD 0 = e := by simp
      simp only [e1, e2, List.dropLast_concat, offset, Irrep.dim, Irreps.dim_eq_dimOf_expand]
      simp

theorem offset_add (I : Irreps) (i t : ℕ) : offset I (i + t) = offset I i + offset (I.drop i) t := by
  unfold offset
  rw [List.take_add]
  simp [expand, dimOf, List.flatMap_append]

/-- `x[index, irreps]` for irreps that occur exactly once, at the terms from `i` on: it is `x[index, :]` restricted to the columns of these terms. -/
theorem C126_irreps [Zero α] (x : NI α) (lead : List ℕ) (hx : Good lead x) (idx l : List Ix) (pat : Irreps) (i : ℕ)
    (hpat : ∀ j, (j < x.irreps.length ∧ (x.irreps.drop j).take pat.length = pat) ↔ j = i)
    (hidx : .ellipsis ∈ idx ∨ idx.length = lead.length) (h : LeavesIrreps (idx ++ [full]) lead.length l) (a : ND α)
    (ha : npIndex x.array (idx ++ [full]) = .ok a) :
    ∃ y lead', getitemIrreps x idx pat = .ok y ∧ y.irreps = pat ∧ y.flags = (x.flags.drop i).take pat.length ∧ Good lead' y ∧
      a.shape = lead' ++ [dimOf (expand x.irreps)] ∧
      ∀ p, IsIdx lead' p → ∀ c, y.array.get (p ++ [c]) = a.get (p ++ [offset x.irreps i + c]) := by
  have hpi := (hpat i).2 rfl
  have hocc : E3nn.IArr.occurrences x.irreps pat = [i] := by
    unfold E3nn.IArr.occurrences
    have : (List.range x.irreps.length).filter (fun j => decide ((x.irreps.drop j).take pat.length = pat)) =
        (List.range x.irreps.length).filter (fun j => decide (j = i)) := by
      apply List.filter_congr
      intro j hj
      have hj' : j < x.irreps.length := by simpa using hj
      have := hpat j
      simp only [hj', true_and] at this
      simp only [this]
    rw [this]
    have h2 := List.nodup_range (n := x.irreps.length)
    have h3 : (List.range x.irreps.length).filter (fun j => decide (j = i)) = List.replicate ((List.range x.irreps.length).count i) i := by
      rw [← List.filter_eq]
    rw [h3, List.count_eq_one_of_mem h2 (by simpa using hpi.1)]
    rfl
  have hv := views_good hx
  obtain ⟨v1, v2⟩ := hv.chunks _ rfl
  simp only at v1 v2
  have hterm : ∀ t m, pat[t]? = some m → x.irreps[i + t]? = some m ∧ t < pat.length := by
    intro t m hm
    have ht : t < pat.length := (List.getElem?_eq_some_iff.mp hm).1
    rw [← hpi.2, List.getElem?_take, if_pos ht, List.getElem?_drop] at hm
    exact ⟨hm, ht⟩
  have hsub : ∀ {β : Type} (L : List β) (t : ℕ), t < pat.length → ((L.drop i).take pat.length)[t]? = L[i + t]? := by
    intro β L t ht
    rw [List.getElem?_take, if_pos ht, List.getElem?_drop]
  have hlenp : i + pat.length ≤ x.irreps.length := by
    have := congrArg List.length hpi.2
    simp only [List.length_take, List.length_drop] at this
    omega
  have hoff : ∀ t, t ≤ pat.length → offset x.irreps (i + t) = offset x.irreps i + offset pat t := by
    intro t ht
    rw [offset_add]
    congr 1
    conv_rhs => rw [← hpi.2]
    unfold offset
    rw [List.take_take, min_eq_left ht]
  have hdim : Irreps.dim (x.irreps.take (i + pat.length)) - Irreps.dim (x.irreps.take i) = dimOf (expand pat) := by
    rw [Irreps.dim_eq_dimOf_expand, Irreps.dim_eq_dimOf_expand]
    have := hoff pat.length le_rfl
    unfold offset at this
    rw [List.take_length] at this
    omega
  set z : NI α := ⟨pat, ⟨x.array.shape.dropLast ++ [Irreps.dim (x.irreps.take (i + pat.length)) - Irreps.dim (x.irreps.take i)],
    fun p => x.array.get (p.dropLast ++ [Irreps.dim (x.irreps.take i) + p.getLastD 0])⟩,
    (x.flags.drop i).take pat.length, some (((views x).drop i).take pat.length)⟩ with hz
  have hzget : ∀ p c, z.array.get (p ++ [c]) = x.array.get (p ++ [offset x.irreps i + c]) := by
    intro p c
    simp only [hz, List.dropLast_concat, offset, Irreps.dim_eq_dimOf_expand]
    simp
  have hzg : Good lead z := by
    refine ⟨?_, ?_, ?_, ?_⟩
    · simp only [hz]; rw [hdim, hx.shape, List.dropLast_concat]
    · simp only [hz, List.length_take, List.length_drop, hx.flags]; omega
    · rintro cs hcs
      have hcs' : cs = ((views x).drop i).take pat.length := by simp only [hz, Option.some.injEq] at hcs; exact hcs.symm
      subst hcs'
      refine ⟨by simp only [hz, List.length_take, List.length_drop, v1]; omega, ?_⟩
      intro t m hm
      obtain ⟨hm', ht⟩ := hterm t m hm
      rw [show z.flags[t]? = x.flags[i + t]? from hsub _ _ ht, hsub (views x) _ ht]
      rcases v2 _ m hm' with h1 | ⟨h1, c, h2, h3, h4⟩
      · exact Or.inl h1
      · refine Or.inr ⟨h1, c, h2, h3, ?_⟩
        intro p hp j e hj he
        rw [h4 p hp j e hj he, hzget, hoff t ht.le]
        simp only [add_assoc]
        rfl
    · intro t m hm hf p hp j e hj he
      obtain ⟨hm', ht⟩ := hterm t m hm
      rw [show z.flags[t]? = x.flags[i + t]? from hsub _ _ ht] at hf
      rw [hzget, ← hx.zero _ m hm' hf p hp j e hj he, hoff t ht.le]
      simp only [add_assoc]
      rfl
  have hmk : mk' pat z.array z.flags z.chunks? = .ok z := by
    obtain ⟨w1, w2⟩ := hzg.chunks _ rfl
    unfold mk'
    rw [if_neg (by rw [hzg.shape, Irreps.dim_eq_dimOf_expand]; simp [hz]), if_neg, if_neg (by simpa using hzg.flags)]
    · rw [if_neg]
      simpa [hz] using w1
    · rintro ⟨-, hn⟩
      apply hn
      rw [List.all_eq_true]
      rintro ⟨m, c⟩ hq
      obtain ⟨t, ht⟩ := List.mem_iff_getElem?.mp hq
      rw [List.getElem?_zip_eq_some] at ht
      rcases w2 t m ht.1 with ⟨-, h2⟩ | ⟨-, c', h2, h3, -⟩
      · have := ht.2.symm.trans h2
        simp only [Option.some.injEq] at this
        subst this
        rfl
      · have := ht.2.symm.trans h2
        simp only [Option.some.injEq] at this
        subst this
        simp [chunkOk, h3, Irrep.dim]
  have hne : idx ++ [full] ≠ [] := by simp
  have hsup : Supported (idx ++ [full]) lead.length := Or.inr (Or.inr (Or.inr (Or.inl (by simp))))
  obtain ⟨k1, k2⟩ := npIndex_tail (l := l) hx.shape h.1 h.2
  obtain ⟨q1, q2⟩ := npIndex_tail (l := l) hzg.shape h.1 h.2
  cases hr : resolve l lead with
  | error e => rw [k2 e hr] at ha; cases ha
  | ok r =>
  rw [k1 r hr] at ha
  obtain ⟨y, lead', y1, y2, y3, y4, -, y6⟩ := (C126_index (fun _ _ _ => .error .indexError) z lead hzg _ l hne h hsup).2 _ (q1 r hr)
  rw [getitem_plain h hsup hne _ z (by rw [hzg.shape]; simp)] at y1
  have hl' : lead' = outShape r := by
    have := y6.shape
    rw [y4, y2] at this
    exact (List.append_inj' this.symm rfl).1
  subst hl'
  refine ⟨y, outShape r, ?_, y2, y3, y6, by cases ha; rfl, ?_⟩
  · unfold getitemIrreps
    rw [if_neg (by rw [hx.shape, not_not]; simpa using hidx), hocc]
    simp only
    have hmk' := hmk
    simp only [hz] at hmk'
    rw [hmk']
    exact y1
  · intro p hp c
    cases ha
    rw [y4]
    simp only
    rw [back_append _ _ _ _ (List.Forall₂.length_eq hp), back_append _ _ _ _ (List.Forall₂.length_eq hp), back_fulls _ _ (by simp),
      back_fulls _ _ (by simp), hzget]

/-- `x[..., k]`, `x[i, ..., j, k]`, and `x[i, j, k]` with as many entries as axes: an integer on the irreps axis is refused, and so is a new axis at the end. -/
theorem C126_refuse (cut : NI α → Option Int → Option Int → Except PyErr (NI α)) (x : NI α) (init : List Ix) (k : Int)
    (h : init.length + 1 = x.array.shape.length ∨ Ix.ellipsis ∈ init) :
    getitem cut x (init ++ [.int k]) = .error .indexError ∧
    (Ix.ellipsis ∈ init ∨ init.length = x.array.shape.length → getitem cut x (init ++ [.newaxis]) = .error .indexError) := by
  constructor
  · unfold getitem plain
    simp only [List.getLast?_append, List.getLast?_singleton, Option.some_or, List.dropLast_concat, Option.some.injEq, reduceCtorEq, and_false, if_false,
      List.length_append, List.length_singleton, full]
    rw [if_pos ⟨h, by simp⟩]
  · intro h'
    unfold getitem plain
    simp only [List.getLast?_append, List.getLast?_singleton, Option.some_or, List.dropLast_concat]
    rw [if_pos ⟨h'.symm, trivial⟩]

theorem leaves_int (k : Int) (n : ℕ) : LeavesIrreps [.int k] (n + 1) (.int k :: List.replicate n full) := by
  constructor
  · simp [expandIx, consumes, List.replicate_succ']
  · simp [consumes, full, List.countP_cons, List.countP_replicate]

/-- `list(x)` are the rows `x[0], ..., x[n - 1]` of the first axis, with all their entries; without a leading axis it raises ValueError. -/
theorem C126_iter [Zero α] (cut : NI α → Option Int → Option Int → Except PyErr (NI α)) (x : NI α) :
    (∀ n lead, Good (n :: lead) x → ∃ ys, iter cut x = .ok ys ∧ ys.length = n ∧ ∀ k y, ys[k]? = some y →
      y.irreps = x.irreps ∧ y.flags = x.flags ∧ (∀ i, i.length = lead.length + 1 → y.array.get i = x.array.get (k :: i)) ∧ Good lead y) ∧
    (Good [] x → iter cut x = .error .valueError) := by
  constructor
  · intro n lead hx
    have key : ∀ k, k < n → ∃ y, getitem cut x [.int (k : ℕ)] = .ok y ∧ y.irreps = x.irreps ∧ y.flags = x.flags ∧
        (∀ i, i.length = lead.length + 1 → y.array.get i = x.array.get (k :: i)) ∧ Good lead y := by
      intro k hk
      have hl := leaves_int (k : Int) lead.length
      have hr : resolve (.int (k : Int) :: List.replicate lead.length full) (n :: lead) = .ok (.pick k :: lead.map fun n => .range 0 n 1) := by
        simp only [resolve]
        rw [if_pos (by omega), resolve_fulls, Int.emod_eq_of_lt (by omega) (by omega)]
        simp [Except.map]
      have ha := (npIndex_tail (a := x.array) (u := [dimOf (expand x.irreps)]) hx.shape (by simpa using hl.1) hl.2).1 _ hr
      obtain ⟨y, lead', h1, h2, h3, h4, -, h6⟩ := (C126_index cut x (n :: lead) hx [.int (k : Int)] _ (by simp) hl (Or.inl (by simp))).2 _ ha
      have hs := h6.shape
      rw [h4, h2] at hs
      simp only [outShape, outShape_fulls] at hs
      have : lead' = lead := (List.append_inj' hs.symm rfl).1
      subst this
      refine ⟨y, h1, h2, h3, ?_, h6⟩
      intro i hi
      rw [h4]
      simp only [List.cons_append, back]
      rw [← List.map_append, ]
      congr 2
      exact back_fulls _ _ (by simpa using hi)
    have : Nonempty (NI α) := ⟨x⟩
    choose! y hy using key
    refine ⟨(List.range n).map y, ?_, by simp, ?_⟩
    · unfold iter
      rw [hx.shape]
      simp only [List.cons_append, List.length_cons, List.length_append, List.length_nil, List.headD_cons]
      rw [if_neg (by omega)]
      have : ∀ l : List ℕ, (∀ k ∈ l, k < n) → l.mapM (fun i : ℕ => getitem cut x [.int (i : Int)]) = .ok (l.map y) := by
        intro l hl
        induction l with
        | nil => rfl
        | cons k l ih =>
          rw [List.mapM_cons, (hy k (hl k (by simp))).1, ih fun k hk => hl k (List.mem_cons_of_mem _ hk)]
          rfl
      exact this _ (by simp)
    · intro k z hz
      rw [List.getElem?_map] at hz
      by_cases hk : k < n
      · rw [List.getElem?_range hk] at hz
        simp only [Option.map_some, Option.some.injEq] at hz
        subst hz
        exact (hy k hk).2
      · rw [List.getElem?_eq_none (by simpa using hk)] at hz
        cases hz
  · intro hx
    unfold iter
    rw [hx.shape]
    simp

/-- `IrrepsArray("0e + 1o", array)` with an array of shape (2, 4); the second term is flagged zero and `None` in the stored chunks. -/
def wit : NI ℤ := ⟨[⟨1, ⟨0, .e⟩⟩, ⟨1, ⟨1, .o⟩⟩], ⟨[2, 4], fun i => if i.getD 1 0 = 0 then i.getD 0 0 + 5 else 0⟩, [false, true],
  some [some ⟨[2, 1, 1], fun i => i.getD 0 0 + 5⟩, none]⟩

/-- Hypotheses of the theorems: the array above and the indices `x[0]`, `x[:, None]`, `x[..., None, :]`, `x[None, 1, :]`, `x[::2, ...]`. -/
theorem C126_witness : Good [2] wit ∧ (LeavesIrreps [.int 0] 1 [.int 0] ∧ Supported [.int 0] 1) ∧
    (LeavesIrreps [full, .newaxis] 1 [full, .newaxis] ∧ Supported [full, .newaxis] 1) ∧
    (LeavesIrreps [.ellipsis, .newaxis, full] 1 [full, .newaxis] ∧ Supported [.ellipsis, .newaxis, full] 1) ∧
    (LeavesIrreps [.newaxis, .int 1, full] 1 [.newaxis, .int 1] ∧ Supported [.newaxis, .int 1, full] 1) ∧
    (LeavesIrreps [.slice none none (some 2), .ellipsis] 1 [.slice none none (some 2)] ∧ Supported [.slice none none (some 2), .ellipsis] 1) := by
  refine ⟨⟨rfl, rfl, ?_, ?_⟩, ⟨⟨rfl, rfl⟩, Or.inl (by decide)⟩, ⟨⟨rfl, rfl⟩, ?_⟩, ⟨⟨rfl, rfl⟩, Or.inr (Or.inl (by decide))⟩,
    ⟨⟨rfl, rfl⟩, Or.inr (Or.inr (Or.inr (Or.inl rfl)))⟩, ⟨⟨rfl, rfl⟩, Or.inl (by decide)⟩⟩
  · rintro cs ⟨⟩
    refine ⟨rfl, ?_⟩
    intro t m hm
    match t, hm with
    | 0, hm =>
      cases hm
      right
      refine ⟨rfl, _, rfl, rfl, ?_⟩
      intro i hi j e hj he
      cases hi with
      | cons h1 h2 =>
        cases h2
        have : j = 0 := by simpa using hj
        have : e = 0 := by simpa using he
        subst j e
        rfl
    | 1, hm => left; exact ⟨rfl, rfl⟩
    | t + 2, hm => simp [wit] at hm
  · intro t m hm hf i hi j e hj he
    match t, hm, hf with
    | 0, hm, hf => simp [wit] at hf
    | 1, hm, hf =>
      cases hm
      cases hi with
      | cons h1 h2 =>
        cases h2
        simp [wit, offset, expand, dimOf]
    | t + 2, hm, hf => simp [wit] at hm
  · exact Or.inr (Or.inr (Or.inr (Or.inr ⟨rfl, by decide⟩)))

/-- Hypotheses of `C126_irreps`: `x[0, "1o"]` for the array above, with the result. -/
theorem C126_irreps_witness : (∀ j, (j < wit.irreps.length ∧ (wit.irreps.drop j).take 1 = [⟨1, ⟨1, .o⟩⟩]) ↔ j = 1) ∧
    LeavesIrreps ([.int 0] ++ [full]) 1 [.int 0] ∧ (∃ a, npIndex wit.array ([.int 0] ++ [full]) = .ok a ∧ a.shape = [4]) ∧
    ∃ y, getitemIrreps wit [.int 0] [⟨1, ⟨1, .o⟩⟩] = .ok y ∧ y.array.shape = [3] ∧ y.flags = [true] := by
  refine ⟨?_, ⟨rfl, rfl⟩, ⟨_, rfl, rfl⟩, _, rfl, rfl, rfl⟩
  intro j
  match j with
  | 0 => simp [wit]
  | 1 => simp [wit]
  | j + 2 => simp [wit]

/-- With `None` in front, the entry for the leading axis is taken for the irreps axis: `x[None, 0]` of an array of shape (2, 4) raises IndexError, although
`x.array[None, 0]` has the shape (1, 4); `x[None, 0:1]` cuts the irreps axis instead of the first axis; and `x[None, :, 0]` returns an array of shape
(1, 4) with the irreps of `x` when the first axis has 4 entries, although it takes one component of each row. -/
theorem C126_none_witness (cut : NI ℤ → Option Int → Option Int → Except PyErr (NI ℤ)) :
    getitem cut wit [.newaxis, .int 0] = .error .indexError ∧ (∃ a, npIndex wit.array [.newaxis, .int 0] = .ok a ∧ a.shape = [1, 4]) ∧
    (∀ y, cut wit (some 0) (some 1) = .ok y → getitem cut wit [.newaxis, .slice (some 0) (some 1) none] = plain y [.newaxis, full]) ∧
    (∃ y, getitem cut ⟨wit.irreps, ⟨[4, 4], fun i => (4 * i.getD 0 0 + i.getD 1 0 : ℕ)⟩, [false, false], none⟩ [.newaxis, full, .int 0] = .ok y ∧
      y.irreps = wit.irreps ∧ y.array.shape = [1, 4] ∧ y.array.get [0, 1] = 4) := by
  refine ⟨rfl, ⟨_, rfl, rfl⟩, ?_, _, rfl, rfl, rfl, rfl⟩
  intro y hy
  unfold getitem
  simp [wit] at hy ⊢
  rw [hy]

end E3nn.Ndx

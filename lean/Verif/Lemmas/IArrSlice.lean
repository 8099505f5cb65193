import Verif.Lemmas.IArrOps
import Mathlib.Tactic.Ring
import Mathlib.Tactic.Linarith

/-! # Slicing of `IArr` -/

namespace E3nn
namespace IArr

set_option linter.unusedSectionVars false

variable {α : Type} [Zero α]

/-! ### slice_by_mul -/

/-- The blocks denoted by a term and its chunk. -/
def blk (p : MulIrrep × Chunk α) : List (Irrep × List α) :=
  blocksOf (List.replicate p.1.mul p.1.ir) (flatChunk p.1 p.2)

theorem blk_some {m : MulIrrep} {c : List (List α)} (h : shapeOk m (some c) = true) :
    blk (m, some c) = c.map fun r => (m.ir, r) := by
  simp only [shapeOk, Bool.and_eq_true, beq_iff_eq, List.all_eq_true] at h
  have := rows_of_flatten m.mul m.ir.dim c [] h.1 h.2
  rw [List.append_nil] at this
  simp only [blk, flatChunk, blocksOf_replicate]
  rw [this]

theorem blk_length (p : MulIrrep × Chunk α) : (blk p).length = p.1.mul := by
  simp [blk, blocksOf_replicate, rows_length]

theorem Inv.blocks_pairs {x : IArr α} (h : Inv x) :
    x.blocks = (x.irreps.zip x.chunks).flatMap blk := by
  rw [blocks_eq, ← h.pairs.2.2.2.1, List.flatMap_map]
  rfl

/-- The term `m` starting at offset `i` is cut by the slice. -/
def Cut (start stop i mul : Nat) : Prop :=
  ¬ (start ≤ i ∧ i + mul ≤ stop) ∧ start < i + mul ∧ i < stop

instance (a b i m : Nat) : Decidable (Cut a b i m) := by unfold Cut; infer_instance

/-- A zero-flagged term is cut. -/
def CutNone (start stop : Nat) : Nat → List (MulIrrep × Chunk α) → Prop
  | _, [] => False
  | i, (m, c) :: l => (c = none ∧ Cut start stop i m.mul) ∨ CutNone start stop (i + m.mul) l

theorem sliceByMulLoop_spec {start stop : Nat} (hle : start ≤ stop) (i : Nat)
    (ps : List (MulIrrep × Chunk α)) (hs : Shaped ps) :
    (¬ CutNone start stop i ps → ∃ qs : List (MulIrrep × Chunk α),
      sliceByMulLoop start stop i ps =
        .ok (qs.map fun (q : MulIrrep × Chunk α) => (((q.1.mul : Int), q.1.ir), q.2)) ∧ Shaped qs ∧
      qs.flatMap blk = pySlice (ps.flatMap blk) (start - i) (stop - i)) ∧
    (CutNone start stop i ps → sliceByMulLoop start stop i ps = .error .typeError) := by
  induction ps generalizing i with
  | nil => exact ⟨fun _ => ⟨[], rfl, by simp [Shaped], by simp [pySlice]⟩, fun h => h.elim⟩
  | cons p ps ih =>
    obtain ⟨m, c⟩ := p
    have hsh : shapeOk m c = true := hs (m, c) (by simp)
    obtain ⟨i1, i2⟩ := ih (i + m.mul) fun q hq => hs q (by simp [hq])
    have hbl : (blk (m, c)).length = m.mul := blk_length _
    have hsplit : ∀ (l : List (Irrep × List α)), pySlice (blk (m, c) ++ l) (start - i) (stop - i) =
        pySlice (blk (m, c)) (start - i) (stop - i) ++
          pySlice l (start - (i + m.mul)) (stop - (i + m.mul)) := by
      intro l
      unfold pySlice
      rw [List.take_append, List.drop_append, hbl]
      congr 1
      rw [List.length_take, hbl]
      have e1 : stop - i - m.mul = stop - (i + m.mul) := by omega
      rw [e1]
      by_cases h : stop - i ≤ m.mul
      · have : stop - (i + m.mul) = 0 := by omega
        simp [this]
      · have : start - i - min (stop - i) m.mul = start - (i + m.mul) := by omega
        rw [this]
    simp only [sliceByMulLoop, List.flatMap_cons]
    by_cases h1 : start ≤ i ∧ i + m.mul ≤ stop
    · rw [if_pos h1]
      constructor
      · intro hn
        obtain ⟨qs, q1, q2, q3⟩ := i1 fun h => hn (.inr h)
        refine ⟨(m, c) :: qs, ?_, ?_, ?_⟩
        · rw [q1]; rfl
        · intro q hq
          rcases List.mem_cons.mp hq with rfl | hq
          · exact hsh
          · exact q2 q hq
        · rw [List.flatMap_cons, q3, hsplit]
          congr 1
          unfold pySlice
          rw [List.take_of_length_le (by omega), show start - i = 0 by omega]; rfl
      · intro hc
        have : CutNone start stop (i + m.mul) ps := by
          rcases hc with ⟨_, h, _⟩ | h
          · exact absurd h1 h
          · exact h
        rw [i2 this]; rfl
    · rw [if_neg h1]
      by_cases h2 : start < i + m.mul ∧ i < stop
      · rw [if_pos h2]
        cases c with
        | none =>
          exact ⟨fun hn => absurd (.inl ⟨rfl, h1, h2⟩) hn, fun _ => rfl⟩
        | some c =>
          simp only
          constructor
          · intro hn
            obtain ⟨qs, q1, q2, q3⟩ := i1 fun h => hn (.inr h)
            have hsh' := hsh
            simp only [shapeOk, Bool.and_eq_true, beq_iff_eq, List.all_eq_true] at hsh'
            set c' := (c.take (min stop (i + m.mul) - i)).drop (max start i - i) with hc'
            have hcl : c'.length = min stop (i + m.mul) - max start i := by
              rw [hc', List.length_drop, List.length_take, hsh'.1]; omega
            have hsc : shapeOk (⟨min stop (i + m.mul) - max start i, m.ir⟩ : MulIrrep) (some c') = true := by
              simp only [shapeOk, hcl, beq_self_eq_true, Bool.true_and, List.all_eq_true, beq_iff_eq]
              intro r hr
              exact hsh'.2 r (List.mem_of_mem_take (List.mem_of_mem_drop hr))
            refine ⟨(⟨min stop (i + m.mul) - max start i, m.ir⟩, some c') :: qs, ?_, ?_, ?_⟩
            · rw [q1]
              simp only [List.map_cons]
              have : ((min stop (i + m.mul) : Int) - (max start i : Int)) =
                  ((min stop (i + m.mul) - max start i : Nat) : Int) := by
                push_cast; omega
              show Except.ok _ = Except.ok _
              congr 2
              congr 1
              congr 1
            · intro q hq
              rcases List.mem_cons.mp hq with rfl | hq
              · exact hsc
              · exact q2 q hq
            · rw [List.flatMap_cons, q3, hsplit, blk_some hsc, blk_some hsh]
              congr 1
              unfold pySlice
              rw [← List.map_take, ← List.map_drop, hc']
              congr 1
              have e1 : max start i - i = start - i := by omega
              rw [e1]
              congr 1
              by_cases h : stop ≤ i + m.mul
              · rw [Nat.min_eq_left h]
              · rw [List.take_of_length_le (by omega), List.take_of_length_le (by omega)]
          · intro hc
            have : CutNone start stop (i + m.mul) ps := by
              rcases hc with ⟨h, _⟩ | h
              · simp at h
              · exact h
            rw [i2 this]; rfl
      · rw [if_neg h2]
        constructor
        · intro hn
          obtain ⟨qs, q1, q2, q3⟩ := i1 fun h => hn (.inr h)
          refine ⟨qs, q1, q2, ?_⟩
          rw [q3, hsplit]
          have : pySlice (blk (m, c)) (start - i) (stop - i) = [] := by
            unfold pySlice
            apply List.drop_eq_nil_of_le
            rw [List.length_take, hbl]; omega
          rw [this]; rfl
        · intro hc
          have : CutNone start stop (i + m.mul) ps := by
            rcases hc with ⟨_, _, h⟩ | h
            · exact absurd h h2
            · exact h
          rw [i2 this]

theorem ofPairs_nat (ms : Irreps) :
    Irreps.ofPairs (ms.map fun m => ((m.mul : Int), m.ir)) = .ok ms := by
  unfold Irreps.ofPairs
  induction ms with
  | nil => rfl
  | cons m ms ih =>
    rw [List.map_cons, List.mapM_cons, ih]
    simp only [Int.natCast_nonneg, if_true, Int.toNat_natCast]
    rfl

theorem sliceByMul_spec {x : IArr α} (hx : Inv x) (s : PySlice) (hstep : s.stepIsOne = true)
    (hle : (s.bounds x.irreps.numIrreps).1 ≤ (s.bounds x.irreps.numIrreps).2) :
    (¬ CutNone (s.bounds x.irreps.numIrreps).1 (s.bounds x.irreps.numIrreps).2 0
        (x.irreps.zip x.chunks) →
      ∃ y, x.sliceByMul s = .ok y ∧ Inv y ∧
        y.blocks = pySlice x.blocks (s.bounds x.irreps.numIrreps).1 (s.bounds x.irreps.numIrreps).2) ∧
    (CutNone (s.bounds x.irreps.numIrreps).1 (s.bounds x.irreps.numIrreps).2 0
        (x.irreps.zip x.chunks) → x.sliceByMul s = .error .typeError) := by
  have hst0 : s.step ≠ some 0 := by
    intro h; simp [PySlice.stepIsOne, h] at hstep
  obtain ⟨h1, h2⟩ := sliceByMulLoop_spec hle 0 (x.irreps.zip x.chunks) hx.pairs.1
  unfold sliceByMul
  rw [if_neg hst0, if_pos hstep]
  constructor
  · intro hn
    obtain ⟨qs, q1, q2, q3⟩ := h1 hn
    obtain ⟨y, f1, f2, f3, f4, f5, f6, f7, f8⟩ := fromChunks_pairs qs q2
    refine ⟨y, ?_, f2, ?_⟩
    · simp only [q1]
      have e1 : (qs.map fun (q : MulIrrep × Chunk α) => (((q.1.mul : Int), q.1.ir), q.2)).map Prod.fst =
          (qs.map Prod.fst).map fun m => ((m.mul : Int), m.ir) := by
        rw [List.map_map, List.map_map]; rfl
      have e2 : (qs.map fun (q : MulIrrep × Chunk α) => (((q.1.mul : Int), q.1.ir), q.2)).map Prod.snd = qs.map Prod.snd := by
        rw [List.map_map]; rfl
      show (do
        let irreps ← Irreps.ofPairs ((qs.map fun (q : MulIrrep × Chunk α) => (((q.1.mul : Int), q.1.ir), q.2)).map Prod.fst)
        fromChunks irreps ((qs.map fun (q : MulIrrep × Chunk α) => (((q.1.mul : Int), q.1.ir), q.2)).map Prod.snd)) = _
      rw [e1, e2, ofPairs_nat]
      exact f1
    · have : y.irreps.zip y.chunks = qs := by
        rw [f3, f7, List.zip_map']; simp
      rw [f2.blocks_pairs, this, q3, hx.blocks_pairs]
      simp
  · intro hc
    simp only [h2 hc]
    rfl

/-! ### prefixes and borders -/

/-- `t` is the total dimension of the first terms. -/
def Pre (ms : Irreps) (t : Nat) : Prop := ∃ u v, ms = u ++ v ∧ Irreps.dim u = t

theorem pre_iff (ms : Irreps) (t : Nat) :
    Pre ms t ↔ ∃ j, j ≤ ms.length ∧ Irreps.dim (ms.take j) = t := by
  constructor
  · rintro ⟨u, v, rfl, rfl⟩
    exact ⟨u.length, by simp, by rw [List.take_left' rfl]⟩
  · rintro ⟨j, _, rfl⟩
    exact ⟨ms.take j, ms.drop j, (List.take_append_drop _ _).symm, rfl⟩

theorem dim_append' (u v : Irreps) : Irreps.dim (u ++ v) = Irreps.dim u + Irreps.dim v := by
  simp [Irreps.dim]

theorem dim_take_mono (ms : Irreps) {i j : Nat} (h : i ≤ j) :
    Irreps.dim (ms.take i) ≤ Irreps.dim (ms.take j) := by
  obtain ⟨k, rfl⟩ := Nat.exists_eq_add_of_le h
  rw [List.take_add, dim_append']
  omega

/-- `t` is at a border between two irreps. -/
def Border (s : List Irrep) (t : Nat) : Prop := ∃ i, i ≤ s.length ∧ dimOf (s.take i) = t

theorem border_of_pre {ms : Irreps} {t : Nat} (h : Pre ms t) : Border (expand ms) t := by
  obtain ⟨u, v, rfl, rfl⟩ := h
  have e : expand (u ++ v) = expand u ++ expand v := by simp [expand]
  refine ⟨(expand u).length, by simp [e], ?_⟩
  rw [e, List.take_left' rfl, Irreps.dim_eq_dimOf_expand]

theorem dim_take_succ {ms : Irreps} {k : Nat} {m : MulIrrep} (h : ms[k]? = some m) :
    Irreps.dim (ms.take (k + 1)) = Irreps.dim (ms.take k) + m.mul * m.ir.dim := by
  rw [List.take_add_one, dim_append', h]
  simp [Irreps.dim]

theorem dimOf_mono (s : List Irrep) {i j : Nat} (h : i < j) (hj : j ≤ s.length) :
    dimOf (s.take i) < dimOf (s.take j) := by
  induction s generalizing i j with
  | nil => simp at hj; omega
  | cons ir s ih =>
    cases j with
    | zero => omega
    | succ j =>
      cases i with
      | zero => simp [dimOf_cons, Irrep.dim]
      | succ i =>
        simp only [List.take_succ_cons, dimOf_cons]
        have := ih (i := i) (j := j) (by omega) (by simpa using hj)
        omega

theorem dimOf_inj (s : List Irrep) {i j : Nat} (hi : i ≤ s.length) (hj : j ≤ s.length)
    (h : dimOf (s.take i) = dimOf (s.take j)) : i = j := by
  rcases Nat.lt_trichotomy i j with h' | h' | h'
  · have := dimOf_mono s h' hj; omega
  · exact h'
  · have := dimOf_mono s h' hi; omega

/-- A border strictly inside a term cuts off a whole number of irreps. -/
theorem border_inside {ms : Irreps} {k t : Nat} {m : MulIrrep} (hk : ms[k]? = some m)
    (hb : Border (expand ms) t) (h1 : Irreps.dim (ms.take k) ≤ t)
    (h2 : t ≤ Irreps.dim (ms.take (k + 1))) :
    ∃ r, r ≤ m.mul ∧ t = Irreps.dim (ms.take k) + r * m.ir.dim := by
  obtain ⟨i, hi, rfl⟩ := hb
  have e1 : expand ms = expand (ms.take k) ++ (List.replicate m.mul m.ir ++ expand (ms.drop (k + 1))) := by
    conv => lhs; rw [← List.take_append_drop k ms]
    have hlt : k < ms.length := by
      rcases Nat.lt_or_ge k ms.length with h | h
      · exact h
      · rw [List.getElem?_eq_none h] at hk; simp at hk
    have : ms.drop k = m :: ms.drop (k + 1) := by
      rw [List.drop_eq_getElem_cons hlt]
      rw [List.getElem?_eq_getElem hlt] at hk
      simp only [Option.some.injEq] at hk
      rw [hk]
    rw [this, show expand (ms.take k ++ m :: ms.drop (k + 1)) =
      expand (ms.take k) ++ expand (m :: ms.drop (k + 1)) by simp [expand], expand_cons]
  rw [dim_take_succ hk, ] at h2
  rw [Irreps.dim_eq_dimOf_expand] at h1 h2 ⊢
  set s0 := expand (ms.take k)
  set s2 := expand (ms.drop (k + 1))
  have hlow : s0.length ≤ i := by
    by_contra hc
    have := dimOf_mono (expand ms) (i := i) (j := s0.length) (by omega) (by rw [e1]; simp)
    rw [show (expand ms).take s0.length = s0 by rw [e1, List.take_left' rfl]] at this
    omega
  have hhigh : i ≤ s0.length + m.mul := by
    by_contra hc
    have := dimOf_mono (expand ms) (i := s0.length + m.mul) (j := i) (by omega) hi
    rw [show (expand ms).take (s0.length + m.mul) = s0 ++ List.replicate m.mul m.ir by
      rw [e1, ← List.append_assoc, List.take_left' (by simp)], dimOf_append, dimOf_replicate] at this
    omega
  refine ⟨i - s0.length, by omega, ?_⟩
  rw [e1, List.take_append, List.take_of_length_le hlow, List.take_append,
    show i - s0.length - (List.replicate m.mul m.ir).length = 0 by simp; omega]
  simp only [List.take_zero, List.append_nil, dimOf_append, List.take_replicate, dimOf_replicate]
  rw [Nat.min_eq_left (by omega)]

/-! ### the scan -/

/-- Facts about the outcome of the scan. -/
def ScanOk (ms : Irreps) (start stop : Nat) : Scan → Prop
  | .notFound => True
  | .found a b => a ≤ b ∧ b ≤ ms.length ∧ Irreps.dim (ms.take a) = start ∧
      Irreps.dim (ms.take b) = stop
  | .split k mul1 => ∃ m t, ms[k]? = some m ∧ (t = start ∨ t = stop) ∧ ¬ Pre ms t ∧
      (t : Int) = Irreps.dim (ms.take k) + mul1 * m.ir.dim ∧ t < Irreps.dim (ms.take (k + 1))

theorem not_pre {ms : Irreps} {i t : Nat} (h1 : ∀ j < i, Irreps.dim (ms.take j) ≠ t)
    (h2 : t < Irreps.dim (ms.take i)) : ¬ Pre ms t := by
  rw [pre_iff]
  rintro ⟨j, _, hj⟩
  rcases Nat.lt_or_ge j i with h | h
  · exact h1 j h hj
  · have := dim_take_mono ms h; omega

theorem split_arith {ms : Irreps} {i t : Nat} (hi : i ≤ ms.length) (hlt : t < Irreps.dim (ms.take i))
    (hdiv : ((t : Int) - Irreps.dim (ms.take (i - 1))) % (termDim ms (i - 1) : Nat) = 0) :
    ∃ m, ms[i - 1]? = some m ∧ i - 1 + 1 = i ∧ (t : Int) = Irreps.dim (ms.take (i - 1)) +
      (((t : Int) - Irreps.dim (ms.take (i - 1))) / (termDim ms (i - 1) : Nat)) * m.ir.dim := by
  cases i with
  | zero => simp [Irreps.dim] at hlt
  | succ i =>
    simp only [Nat.add_sub_cancel] at hdiv ⊢
    have hlt' : i < ms.length := by omega
    have htd : termDim ms i = (ms[i]).ir.dim := by simp [termDim, List.getElem?_eq_getElem hlt']
    rw [htd] at hdiv ⊢
    refine ⟨ms[i], List.getElem?_eq_getElem hlt', trivial, ?_⟩
    have := Int.ediv_mul_add_emod ((t : Int) - Irreps.dim (ms.take i)) ((ms[i]).ir.dim : Int)
    rw [hdiv] at this
    omega

theorem scan_ok (ms : Irreps) (start stop : Nat) (n i : Nat) (s : Option Nat)
    (hn : n = ms.length + 1 - i)
    (h1 : ∀ j < i, Irreps.dim (ms.take j) ≠ stop)
    (h2 : s = none → ∀ j < i, Irreps.dim (ms.take j) ≠ start)
    (h3 : ∀ a, s = some a → a < i ∧ Irreps.dim (ms.take a) = start) :
    ScanOk ms start stop (scan ms start stop (List.range' i n) s) := by
  induction n generalizing i s with
  | zero => exact trivial
  | succ n ih =>
    have hi : i ≤ ms.length := by omega
    simp only [List.range'_succ, scan]
    set d := Irreps.dim (ms.take i) with hd
    set s' := (if d = start then some i else s) with hs'
    have k2 : s' = none → ∀ j < i + 1, Irreps.dim (ms.take j) ≠ start := by
      intro h j hj
      rw [hs'] at h
      by_cases hds : d = start
      · simp [hds] at h
      · rw [if_neg hds] at h
        rcases Nat.lt_or_ge j i with h' | h'
        · exact h2 h j h'
        · have : j = i := by omega
          subst this; exact hds
    have k3 : ∀ a, s' = some a → a < i + 1 ∧ Irreps.dim (ms.take a) = start := by
      intro a h
      rw [hs'] at h
      by_cases hds : d = start
      · simp only [if_pos hds, Option.some.injEq] at h
        subst h; exact ⟨by omega, hds⟩
      · rw [if_neg hds] at h
        have := h3 a h; exact ⟨by omega, this.2⟩
    by_cases hE1 : s' = none ∧ start < d ∧
        ((start : Int) - Irreps.dim (ms.take (i - 1))) % (termDim ms (i - 1) : Nat) = 0
    · rw [if_pos hE1]
      obtain ⟨m, m1, m2, m3⟩ := split_arith hi hE1.2.1 hE1.2.2
      refine ⟨m, start, m1, .inl rfl, not_pre (fun j hj => k2 hE1.1 j (by omega)) hE1.2.1, m3, ?_⟩
      rw [m2]; exact hE1.2.1
    rw [if_neg hE1]
    by_cases hE2 : d = stop
    · rw [if_pos hE2]
      cases hs'' : s' with
      | none => exact trivial
      | some a =>
        have := k3 a hs''
        exact ⟨by omega, hi, this.2, hE2⟩
    rw [if_neg hE2]
    by_cases hE3 : stop < d ∧
        ((stop : Int) - Irreps.dim (ms.take (i - 1))) % (termDim ms (i - 1) : Nat) = 0
    · rw [if_pos hE3]
      obtain ⟨m, m1, m2, m3⟩ := split_arith hi hE3.1 hE3.2
      refine ⟨m, stop, m1, .inr rfl, not_pre h1 hE3.1, m3, ?_⟩
      rw [m2]; exact hE3.1
    rw [if_neg hE3]
    refine ih (i + 1) s' (by omega) ?_ k2 k3
    intro j hj
    rcases Nat.lt_or_ge j i with h' | h'
    · exact h1 j h'
    · have : j = i := by omega
      subst this; exact hE2

/-- At two borders in the right order the scan finds them, or splits the term at one of them. -/
def ScanGood : Scan → Prop
  | .notFound => False
  | .found _ _ => True
  | .split _ mul1 => 0 ≤ mul1

theorem border_div {ms : Irreps} {i t : Nat} (hi0 : 0 < i) (hi : i ≤ ms.length)
    (hb : Border (expand ms) t)
    (h1 : Irreps.dim (ms.take (i - 1)) < t) (h2 : t < Irreps.dim (ms.take i)) :
    ((t : Int) - Irreps.dim (ms.take (i - 1))) % (termDim ms (i - 1) : Nat) = 0 := by
  obtain ⟨k, rfl⟩ : ∃ k, i = k + 1 := ⟨i - 1, by omega⟩
  simp only [Nat.add_sub_cancel] at h1 ⊢
  have hlt : k < ms.length := by omega
  have htd : termDim ms k = (ms[k]).ir.dim := by simp [termDim, List.getElem?_eq_getElem hlt]
  rw [htd]
  obtain ⟨r, _, e⟩ := border_inside (List.getElem?_eq_getElem hlt) hb (by omega) (by omega)
  rw [e]
  simp

theorem div_nonneg' {ms : Irreps} {i t : Nat} (h1 : Irreps.dim (ms.take (i - 1)) < t) :
    0 ≤ ((t : Int) - Irreps.dim (ms.take (i - 1))) / (termDim ms (i - 1) : Nat) :=
  Int.ediv_nonneg (by omega) (by omega)

theorem scan_good (ms : Irreps) (start stop : Nat) (hle : start ≤ stop)
    (hb1 : Border (expand ms) start) (hb2 : Border (expand ms) stop)
    (hstop : stop ≤ Irreps.dim ms) (n i : Nat) (s : Option Nat)
    (hn : n = ms.length + 1 - i)
    (h1 : ∀ j < i, Irreps.dim (ms.take j) < stop)
    (h2 : s = none → ∀ j < i, Irreps.dim (ms.take j) < start) :
    ScanGood (scan ms start stop (List.range' i n) s) := by
  induction n generalizing i s with
  | zero =>
    have := h1 ms.length (by omega)
    rw [List.take_length] at this
    omega
  | succ n ih =>
    have hi : i ≤ ms.length := by omega
    simp only [List.range'_succ, scan]
    set d := Irreps.dim (ms.take i) with hd
    set s' := (if d = start then some i else s) with hs'
    have hpos : ∀ t, t < d → 0 < i := by
      intro t ht
      rcases Nat.eq_zero_or_pos i with h | h
      · subst h; simp [hd, Irreps.dim] at ht
      · exact h
    have k2 : s' = none → (∀ j < i, Irreps.dim (ms.take j) < start) ∧ d ≠ start := by
      intro h
      rw [hs'] at h
      by_cases hds : d = start
      · simp [hds] at h
      · rw [if_neg hds] at h
        exact ⟨h2 h, hds⟩
    by_cases hE1 : s' = none ∧ start < d ∧
        ((start : Int) - Irreps.dim (ms.take (i - 1))) % (termDim ms (i - 1) : Nat) = 0
    · rw [if_pos hE1]
      exact div_nonneg' ((k2 hE1.1).1 (i - 1) (by have := hpos _ hE1.2.1; omega))
    rw [if_neg hE1]
    have hnone : s' = none → d < start := by
      intro h
      obtain ⟨a1, a2⟩ := k2 h
      by_contra hc
      have hlt : start < d := by omega
      have hp := hpos _ hlt
      exact hE1 ⟨h, hlt, border_div hp hi hb1 (a1 (i - 1) (by omega)) hlt⟩
    by_cases hE2 : d = stop
    · rw [if_pos hE2]
      cases hs'' : s' with
      | none => have := hnone hs''; omega
      | some a => exact trivial
    rw [if_neg hE2]
    by_cases hE3 : stop < d ∧
        ((stop : Int) - Irreps.dim (ms.take (i - 1))) % (termDim ms (i - 1) : Nat) = 0
    · rw [if_pos hE3]
      exact div_nonneg' (h1 (i - 1) (by have := hpos _ hE3.1; omega))
    rw [if_neg hE3]
    have hlt : d < stop := by
      by_contra hc
      have hlt : stop < d := by omega
      have hp := hpos _ hlt
      exact hE3 ⟨hlt, border_div hp hi hb2 (h1 (i - 1) (by omega)) hlt⟩
    refine ih (i + 1) s' (by omega) ?_ ?_
    · intro j hj
      rcases Nat.lt_or_ge j i with h' | h'
      · exact h1 j h'
      · have : j = i := by omega
        subst this; exact hlt
    · intro h j hj
      rcases Nat.lt_or_ge j i with h' | h'
      · exact (k2 h).1 j h'
      · have : j = i := by omega
        subst this; exact hnone h

/-! ### splitting a term -/

theorem splitTerm_cases {ms : Irreps} {k : Nat} {mul1 : Int} {m : MulIrrep} (hk : ms[k]? = some m) :
    (splitTerm ms k mul1 = .error .valueError ∧ ¬ (0 ≤ mul1 ∧ mul1 ≤ m.mul)) ∨
    (∃ r : Nat, mul1 = r ∧ r ≤ m.mul ∧ splitTerm ms k mul1 =
      .ok (ms.take k ++ [⟨r, m.ir⟩, ⟨m.mul - r, m.ir⟩] ++ ms.drop (k + 1))) := by
  unfold splitTerm
  rw [hk]
  simp only
  by_cases h0 : 0 ≤ mul1
  · by_cases h1 : mul1 ≤ m.mul
    · right
      refine ⟨mul1.toNat, by omega, by omega, ?_⟩
      have e : Irreps.ofPairs [(mul1, m.ir), ((m.mul : Int) - mul1, m.ir)] =
          .ok [⟨mul1.toNat, m.ir⟩, ⟨m.mul - mul1.toNat, m.ir⟩] := by
        have := ofPairs_nat [⟨mul1.toNat, m.ir⟩, ⟨m.mul - mul1.toNat, m.ir⟩]
        simp only [List.map_cons, List.map_nil] at this
        rw [← this]
        congr 3
        · congr 1; omega
        · congr 2; omega
      rw [e]; rfl
    · left
      refine ⟨?_, by omega⟩
      have e : Irreps.ofPairs [(mul1, m.ir), ((m.mul : Int) - mul1, m.ir)] = .error .valueError := by
        unfold Irreps.ofPairs
        simp only [List.mapM_cons, if_pos h0]
        rw [if_neg (by omega)]; rfl
      rw [e]; rfl
  · left
    refine ⟨?_, by omega⟩
    have e : Irreps.ofPairs [(mul1, m.ir), ((m.mul : Int) - mul1, m.ir)] = .error .valueError := by
      unfold Irreps.ofPairs
      simp only [List.mapM_cons, if_neg h0]; rfl
    rw [e]; rfl

theorem split_facts {ms : Irreps} {k r : Nat} {m : MulIrrep} (hk : ms[k]? = some m) (hr : r ≤ m.mul) :
    let new : Irreps := ms.take k ++ [⟨r, m.ir⟩, ⟨m.mul - r, m.ir⟩] ++ ms.drop (k + 1)
    expand new = expand ms ∧ (∀ t, Pre ms t → Pre new t) ∧
      Pre new (Irreps.dim (ms.take k) + r * m.ir.dim) := by
  intro new
  have hlt : k < ms.length := by
    rcases Nat.lt_or_ge k ms.length with h | h
    · exact h
    · rw [List.getElem?_eq_none h] at hk; simp at hk
  have hms : ms = ms.take k ++ (m :: ms.drop (k + 1)) := by
    conv => lhs; rw [← List.take_append_drop k ms]
    rw [List.drop_eq_getElem_cons hlt]
    rw [List.getElem?_eq_getElem hlt] at hk
    simp only [Option.some.injEq] at hk
    rw [hk]
  have hea : ∀ u v : Irreps, expand (u ++ v) = expand u ++ expand v := by intro u v; simp [expand]
  have hmid : m.mul * m.ir.dim = r * m.ir.dim + (m.mul - r) * m.ir.dim := by
    rw [← Nat.add_mul]; congr 1; omega
  refine ⟨?_, ?_, ?_⟩
  · conv => rhs; rw [hms]
    simp only [new, hea, expand_cons]
    rw [List.append_assoc]
    congr 1
    rw [← List.append_assoc]
    congr 1
    simp only [expand, List.flatMap_nil, List.append_nil, ← List.replicate_add]
    congr 1
    omega
  · rintro t ⟨u, v, e, rfl⟩
    rw [e] at hms
    rcases List.append_eq_append_iff.mp hms with ⟨as, h1, h2⟩ | ⟨bs, h1, h2⟩
    · refine ⟨u, as ++ [⟨r, m.ir⟩, ⟨m.mul - r, m.ir⟩] ++ ms.drop (k + 1), ?_, rfl⟩
      simp only [new, ← e] at *
      rw [h1]; simp
    · cases bs with
      | nil =>
        refine ⟨ms.take k, [⟨r, m.ir⟩, ⟨m.mul - r, m.ir⟩] ++ ms.drop (k + 1), by simp [new], ?_⟩
        rw [← e] at h1
        rw [h1]; simp
      | cons b bs =>
        simp only [List.cons_append, List.cons.injEq] at h2
        obtain ⟨rfl, h2⟩ := h2
        refine ⟨ms.take k ++ [⟨r, m.ir⟩, ⟨m.mul - r, m.ir⟩] ++ bs, v, ?_, ?_⟩
        · rw [← e] at h2
          simp only [new, h2]; simp
        · rw [← e] at h1
          rw [h1]
          simp only [dim_append', Irreps.dim_cons, MulIrrep.dim]
          simp [Irreps.dim]
          omega
  · refine ⟨ms.take k ++ [⟨r, m.ir⟩], [⟨m.mul - r, m.ir⟩] ++ ms.drop (k + 1), by simp [new], ?_⟩
    rw [dim_append']
    simp [Irreps.dim]

/-! ### getSlice -/

open Classical in
/-- Number of bounds not yet at the border of a term. -/
noncomputable def defect (ms : Irreps) (start stop : Nat) : Nat :=
  (if Pre ms start then 0 else 1) + (if Pre ms stop then 0 else 1)

theorem range_eq (n : Nat) : List.range n = List.range' 0 n := List.range_eq_range'

/-- The result of a successful slice. -/
def SliceRes (x y : IArr α) (start stop : Nat) : Prop :=
  Inv y ∧ y.array = pySlice x.array start stop ∧
    ∃ i j, i ≤ j ∧ j ≤ (expand x.irreps).length ∧ dimOf ((expand x.irreps).take i) = start ∧
      dimOf ((expand x.irreps).take j) = stop ∧ y.blocks = pySlice x.blocks i j

theorem blocksOf_slice (s : List Irrep) (a : List α) (i j : Nat) :
    blocksOf (pySlice s i j) (a.drop (dimOf (s.take i))) = pySlice (blocksOf s a) i j := by
  induction s generalizing a i j with
  | nil => simp [pySlice, blocksOf]
  | cons ir s ih =>
    cases j with
    | zero => simp [pySlice, blocksOf]
    | succ j =>
      cases i with
      | zero =>
        have := ih (a.drop (2 * ir.l + 1)) 0 j
        simp only [pySlice, List.take_zero, dimOf_nil, List.drop_zero] at this
        simp only [pySlice, List.take_succ_cons, List.take_zero, dimOf_nil, List.drop_zero, blocksOf, this]
      | succ i =>
        have := ih (a.drop (2 * ir.l + 1)) i j
        simp only [pySlice] at this
        simp only [pySlice, List.take_succ_cons, List.drop_succ_cons, dimOf_cons, blocksOf]
        rw [← this, List.drop_drop]
        rfl

theorem found_spec {x : IArr α} (hx : Inv x) {start stop a b : Nat} (hab : a ≤ b)
    (hb : b ≤ x.irreps.length) (h1 : Irreps.dim (x.irreps.take a) = start)
    (h2 : Irreps.dim (x.irreps.take b) = stop) :
    ∃ y, make ((x.irreps.take b).drop a) ((x.array.take stop).drop start)
      (some ((x.zeroFlags.take b).drop a)) (some ((x.chunks.take b).drop a)) = .ok y ∧
      SliceRes x y start stop := by
  have hsplit : x.irreps = x.irreps.take a ++ (x.irreps.take b).drop a ++ x.irreps.drop b := by
    have e : x.irreps.take b = x.irreps.take a ++ (x.irreps.take b).drop a := by
      conv => lhs; rw [← List.take_append_drop a (x.irreps.take b)]
      rw [List.take_take, Nat.min_eq_left hab]
    conv => lhs; rw [← List.take_append_drop b x.irreps, e]
  have hul : (x.irreps.take a).length = a := by rw [List.length_take]; omega
  have hvl : ((x.irreps.take b).drop a).length = b - a := by
    rw [List.length_drop, List.length_take]; omega
  have hvd : Irreps.dim ((x.irreps.take b).drop a) = stop - start := by
    have e : x.irreps.take b = x.irreps.take a ++ (x.irreps.take b).drop a := by
      conv => lhs; rw [← List.take_append_drop a (x.irreps.take b)]
      rw [List.take_take, Nat.min_eq_left hab]
    rw [e, dim_append'] at h2
    omega
  have hf := hx.flags
  rw [hsplit] at hf
  obtain ⟨m1, m2, m3⟩ := flagsOk_mid hf
  rw [← hsplit] at m2 m3
  rw [hul, hvl, hvd, h1] at m1 m2 m3
  have hdt : ∀ {γ : Type} (l : List γ) (p q : Nat), (l.drop p).take (q - p) = (l.take q).drop p := by
    intro γ l p q; rw [List.drop_take]
  rw [hdt, hdt] at m1
  rw [hdt, hdt, hdt, ← hx.chunks_eq] at m2
  rw [← m2]
  refine ⟨_, make_cache m1, inv_cache m1, rfl, ?_⟩
  have hea : ∀ u v : Irreps, expand (u ++ v) = expand u ++ expand v := by intro u v; simp [expand]
  have hex : expand x.irreps = expand (x.irreps.take a) ++
      expand ((x.irreps.take b).drop a) ++ expand (x.irreps.drop b) := by
    conv => lhs; rw [hsplit]
    rw [hea, hea]
  have hexb : expand (x.irreps.take b) = expand (x.irreps.take a) ++
      expand ((x.irreps.take b).drop a) := by
    rw [← hea]
    congr 1
    conv => lhs; rw [← List.take_append_drop a (x.irreps.take b)]
    rw [List.take_take, Nat.min_eq_left hab]
  have t1 : (expand x.irreps).take (expand (x.irreps.take a)).length = expand (x.irreps.take a) := by
    rw [hex, List.append_assoc, List.take_left' rfl]
  have t2 : (expand x.irreps).take (expand (x.irreps.take b)).length = expand (x.irreps.take b) := by
    rw [hex, ← hexb, List.take_left' rfl]
  refine ⟨(expand (x.irreps.take a)).length, (expand (x.irreps.take b)).length, ?_, ?_, ?_, ?_, ?_⟩
  · rw [hexb]; simp
  · rw [hex, ← hexb]; simp
  · rw [t1, ← Irreps.dim_eq_dimOf_expand]; exact h1
  · rw [t2, ← Irreps.dim_eq_dimOf_expand]; exact h2
  · unfold IArr.blocks
    rw [← blocksOf_slice, t1, ← Irreps.dim_eq_dimOf_expand, h1]
    simp only
    have : pySlice (expand x.irreps) (expand (x.irreps.take a)).length (expand (x.irreps.take b)).length =
        expand ((x.irreps.take b).drop a) := by
      unfold pySlice
      rw [t2, hexb, List.drop_left' rfl]
    rw [this, ← hdt x.array, blocksOf_take]
    rw [← Irreps.dim_eq_dimOf_expand, hvd]

theorem SliceRes.of_same {x x' y : IArr α} {start stop : Nat} (h : SliceRes x' y start stop)
    (he : expand x'.irreps = expand x.irreps) (ha : x'.array = x.array) : SliceRes x y start stop := by
  unfold SliceRes at *
  unfold IArr.blocks at *
  rw [he, ha] at h
  exact h

theorem getSliceAux_spec (start stop fuel : Nat) {x : IArr α} (hx : Inv x)
    (hfuel : defect x.irreps start stop < fuel) :
    (∀ y, getSliceAux start stop fuel x = .ok y → SliceRes x y start stop) ∧
    (getSliceAux start stop fuel x ≠ .error .diverges) ∧
    (start ≤ stop → Border (expand x.irreps) start → Border (expand x.irreps) stop →
      stop ≤ Irreps.dim x.irreps → ∃ y, getSliceAux start stop fuel x = .ok y) := by
  induction fuel generalizing x with
  | zero => omega
  | succ fuel ih =>
    have hok := scan_ok x.irreps start stop (x.irreps.length + 1) 0 none (by omega) (by simp)
      (by simp) (by simp)
    rw [← range_eq] at hok
    simp only [getSliceAux]
    cases hsc : scan x.irreps start stop (List.range (x.irreps.length + 1)) none with
    | notFound =>
      refine ⟨by simp, by simp, ?_⟩
      intro h1 h2 h3 h4
      have hg := scan_good x.irreps start stop h1 h2 h3 h4 (x.irreps.length + 1) 0 none (by omega)
        (by simp) (by simp)
      rw [← range_eq, hsc] at hg
      exact hg.elim
    | found a b =>
      rw [hsc] at hok
      obtain ⟨o1, o2, o3, o4⟩ := hok
      obtain ⟨y, y1, y2⟩ := found_spec hx o1 o2 o3 o4
      simp only [y1]
      refine ⟨?_, by simp, fun _ _ _ _ => ⟨y, rfl⟩⟩
      intro y' hy'
      simp only [Except.ok.injEq] at hy'
      rw [← hy']; exact y2
    | split k mul1 =>
      rw [hsc] at hok
      obtain ⟨m, t, o1, o2, o3, o4, o5⟩ := hok
      simp only
      rcases splitTerm_cases (mul1 := mul1) o1 with ⟨e, hneg⟩ | ⟨r, e1, e2, e3⟩
      · rw [e]
        refine ⟨by intro y h; exact absurd h (by simp [bind, Except.bind]), by simp [bind, Except.bind], ?_⟩
        intro h1 h2 h3 h4
        have hg := scan_good x.irreps start stop h1 h2 h3 h4 (x.irreps.length + 1) 0 none (by omega)
          (by simp) (by simp)
        rw [← range_eq, hsc] at hg
        simp only [ScanGood] at hg
        exfalso
        apply hneg
        refine ⟨hg, ?_⟩
        rw [dim_take_succ o1] at o5
        by_contra hc
        have hd : (0 : Int) < m.ir.dim := by unfold Irrep.dim; omega
        have h5 : (t : Int) < (Irreps.dim (x.irreps.take k) : Int) + m.mul * m.ir.dim := by
          exact_mod_cast o5
        have h6 : (m.mul : Int) * m.ir.dim ≤ mul1 * m.ir.dim :=
          Int.mul_le_mul_of_nonneg_right (by omega) (by omega)
        omega
      · obtain ⟨f1, f2, f3⟩ := split_facts o1 e2
        have ht : t = Irreps.dim (x.irreps.take k) + r * m.ir.dim := by
          rw [e1] at o4; exact_mod_cast o4
        rw [← ht] at f3
        obtain ⟨z, z1, z2, z3, z4⟩ := rechunk_spec hx f1.symm
        have hdef : defect z.irreps start stop < fuel := by
          rw [z3]
          refine Nat.lt_of_lt_of_le ?_ (Nat.lt_succ_iff.mp hfuel)
          have g1 := f2 start
          have g2 := f2 stop
          unfold defect
          rcases o2 with rfl | rfl
          · rw [if_pos f3, if_neg o3]
            split_ifs <;> first | omega | (exfalso; tauto)
          · rw [if_pos f3, if_neg o3]
            split_ifs <;> first | omega | (exfalso; tauto)
        obtain ⟨i1, i2, i3⟩ := ih z2 hdef
        have he : expand z.irreps = expand x.irreps := by rw [z3, f1]
        have hstep : (do
            let new ← splitTerm x.irreps k mul1
            let y ← x.rechunk new
            getSliceAux start stop fuel y) = getSliceAux start stop fuel z := by
          rw [e3]
          show (x.rechunk _ >>= fun y => getSliceAux start stop fuel y) = _
          rw [z1]; rfl
        rw [hstep]
        refine ⟨fun y hy => (i1 y hy).of_same he z4, i2, ?_⟩
        intro h1 h2 h3 h4
        refine i3 h1 (he ▸ h2) (he ▸ h3) ?_
        rw [Irreps.dim_eq_dimOf_expand, he, ← Irreps.dim_eq_dimOf_expand]; exact h4

theorem defect_le (ms : Irreps) (start stop : Nat) : defect ms start stop < 3 := by
  unfold defect
  split_ifs <;> omega

theorem adjustIndex_le (n : Nat) (i : Int) : adjustIndex n i ≤ n := by
  unfold adjustIndex; split <;> omega

theorem bounds_le (s : PySlice) (n : Nat) : (s.bounds n).1 ≤ n ∧ (s.bounds n).2 ≤ n := by
  unfold PySlice.bounds
  constructor
  · cases s.start with
    | none => simp
    | some i => exact adjustIndex_le n i
  · cases s.stop with
    | none => simp
    | some i => exact adjustIndex_le n i

/-! ### getIrreps -/

theorem occurrences_mem (ms pat : Irreps) (i : Nat) :
    i ∈ occurrences ms pat ↔ i < ms.length ∧ (ms.drop i).take pat.length = pat := by
  simp [occurrences]

theorem getIrreps_spec {x : IArr α} (hx : Inv x) {pat : Irreps} {i : Nat}
    (h : occurrences x.irreps pat = [i]) :
    ∃ y, x.getIrreps pat = .ok y ∧ Inv y ∧ y.irreps = pat ∧
      y.terms = (x.terms.drop i).take pat.length := by
  have hm := (occurrences_mem x.irreps pat i).mp (by rw [h]; simp)
  unfold getIrreps
  rw [h]
  simp only
  have hsplit : x.irreps = x.irreps.take i ++ pat ++ x.irreps.drop (i + pat.length) := by
    conv => lhs; rw [← List.take_append_drop i x.irreps]
    rw [List.append_assoc]
    congr 1
    conv => lhs; rw [← List.take_append_drop pat.length (x.irreps.drop i), hm.2]
    rw [List.drop_drop]
  have hul : (x.irreps.take i).length = i := by rw [List.length_take]; omega
  have hf := hx.flags
  rw [hsplit] at hf
  obtain ⟨m1, m2, m3⟩ := flagsOk_mid hf
  rw [← hsplit] at m2 m3
  rw [hul] at m1 m2 m3
  have hd : Irreps.dim (x.irreps.take (i + pat.length)) = Irreps.dim (x.irreps.take i) + Irreps.dim pat := by
    rw [List.take_add, dim_append', hm.2]
  have hdt : (x.array.drop (Irreps.dim (x.irreps.take i))).take (Irreps.dim pat) =
      (x.array.take (Irreps.dim (x.irreps.take (i + pat.length)))).drop (Irreps.dim (x.irreps.take i)) := by
    rw [List.drop_take, hd, Nat.add_sub_cancel_left]
  rw [hdt] at m1 m2 m3
  rw [← hx.chunks_eq] at m2
  rw [← m2]
  exact ⟨_, make_cache m1, inv_cache m1, rfl, m3⟩

end IArr
end E3nn

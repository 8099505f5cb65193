import Verif.Lemmas.IArr

/-! # `rechunk` -/

namespace E3nn
namespace IArr

set_option linter.unusedSectionVars false

variable {α : Type} [Zero α]

/-- One irrep block with its zero flag. -/
structure Ent (α : Type) where
  ir : Irrep
  flag : Bool
  row : List α

def Ent.Ok (e : Ent α) : Prop :=
  e.row.length = e.ir.dim ∧ (e.flag = true → e.row = List.replicate e.ir.dim 0)

def entsC (m : MulIrrep) : Chunk α → List (Ent α)
  | none => List.replicate m.mul ⟨m.ir, true, List.replicate m.ir.dim 0⟩
  | some r => r.map fun r => ⟨m.ir, false, r⟩

def packC (es : List (Ent α)) : Chunk α :=
  if es.all Ent.flag then none else some (es.map Ent.row)

def packCur (es : List (Ent α)) : Cur α :=
  if es.all Ent.flag then .count es.length else .arr (es.map Ent.row)

def group {γ : Type} : Irreps → List γ → List (List γ)
  | [], _ => []
  | m :: ms, l => l.take m.mul :: group ms (l.drop m.mul)

theorem entsC_ok {m : MulIrrep} {c : Chunk α} (h : shapeOk m c = true) :
    (entsC m c).length = m.mul ∧ (∀ e ∈ entsC m c, e.Ok ∧ e.ir = m.ir) := by
  cases c with
  | none =>
    refine ⟨by simp [entsC], ?_⟩
    intro e he
    have := List.eq_of_mem_replicate he
    subst this
    exact ⟨⟨by simp, fun _ => rfl⟩, rfl⟩
  | some r =>
    simp only [shapeOk, Bool.and_eq_true, beq_iff_eq, List.all_eq_true] at h
    refine ⟨by simp [entsC, h.1], ?_⟩
    intro e he
    simp only [entsC, List.mem_map] at he
    obtain ⟨a, ha, rfl⟩ := he
    exact ⟨⟨h.2 a ha, by simp⟩, rfl⟩

theorem packCur_mul (es : List (Ent α)) : (packCur es).mul = es.length := by
  unfold packCur; split <;> simp [Cur.mul]

theorem packCur_chunk (es : List (Ent α)) : (packCur es).chunk = packC es := by
  unfold packCur packC; split <;> rfl

theorem rows_of_flagged {ir : Irrep} {es : List (Ent α)} (h : ∀ e ∈ es, e.Ok ∧ e.ir = ir)
    (hf : es.all Ent.flag = true) :
    es.map Ent.row = List.replicate es.length (List.replicate ir.dim 0) := by
  rw [List.eq_replicate_iff]
  refine ⟨by simp, ?_⟩
  intro b hb
  obtain ⟨e, he, rfl⟩ := List.mem_map.mp hb
  rw [List.all_eq_true] at hf
  rw [(h e he).1.2 (hf e he), (h e he).2]

/-- How a run of entries appears as a chunk `x`: `None` for flagged ones, the rows otherwise. -/
def Repr (es : List (Ent α)) : Chunk α → Prop
  | none => es.all Ent.flag = true
  | some r => (∀ e ∈ es, e.flag = false) ∧ r = es.map Ent.row

theorem entsC_repr (m : MulIrrep) (c : Chunk α) : Repr (entsC m c) c := by
  cases c with
  | none => simp [Repr, entsC]
  | some r => simp [Repr, entsC, Function.comp_def]

theorem Repr.take {es : List (Ent α)} {x : Chunk α} (h : Repr es x) (k : Nat) :
    Repr (es.take k) (x.map fun r => r.take k) := by
  cases x with
  | none =>
    simp only [Repr, List.all_eq_true, Option.map_none] at h ⊢
    exact fun e he => h e (List.mem_of_mem_take he)
  | some r =>
    simp only [Repr, Option.map_some] at h ⊢
    exact ⟨fun e he => h.1 e (List.mem_of_mem_take he), by rw [h.2, List.map_take]⟩

theorem Repr.drop {es : List (Ent α)} {x : Chunk α} (h : Repr es x) (k : Nat) :
    Repr (es.drop k) (x.map fun r => r.drop k) := by
  cases x with
  | none =>
    simp only [Repr, List.all_eq_true, Option.map_none] at h ⊢
    exact fun e he => h e (List.mem_of_mem_drop he)
  | some r =>
    simp only [Repr, Option.map_some] at h ⊢
    exact ⟨fun e he => h.1 e (List.mem_of_mem_drop he), by rw [h.2, List.map_drop]⟩

theorem extendCur_pack {ir : Irrep} {ce es : List (Ent α)} {x : Chunk α}
    (h1 : ∀ e ∈ ce, e.Ok ∧ e.ir = ir) (h2 : ∀ e ∈ es, e.Ok ∧ e.ir = ir) (hx : Repr es x)
    (hne : es ≠ []) :
    extendCur ir.dim (packCur ce) es.length x = packCur (ce ++ es) := by
  cases x with
  | none =>
    simp only [Repr] at hx
    unfold packCur
    rw [List.all_append, hx, Bool.and_true]
    split
    · simp [extendCur]
    · simp only [extendCur, List.map_append, rows_of_flagged h2 hx]
  | some r =>
    obtain ⟨hf, rfl⟩ := hx
    have hna : es.all Ent.flag = false := by
      cases es with
      | nil => exact absurd rfl hne
      | cons e es => simp [hf e (by simp)]
    unfold packCur
    rw [List.all_append, hna, Bool.and_false]
    simp only [Bool.false_eq_true, if_false]
    split
    · rename_i hce
      simp only [extendCur, List.map_append, rows_of_flagged h1 hce]
      split
      · rename_i h0; simp [h0]
      · rfl
    · simp [extendCur]

def pg (ms : Irreps) (es : List (Ent α)) : List (Chunk α) := (group ms es).map packC

theorem skipZeros_spec (done : List (Chunk α)) (ms : Irreps) (es : List (Ent α)) :
    (skipZeros done ms).1 ++ pg (skipZeros done ms).2 es = done ++ pg ms es ∧
    expand (skipZeros done ms).2 = expand ms ∧
    (∀ t ts, (skipZeros done ms).2 = t :: ts → 0 < t.mul) := by
  induction ms generalizing done with
  | nil => simp [skipZeros]
  | cons m ms ih =>
    simp only [skipZeros]
    by_cases h : m.mul = 0
    · rw [if_pos h]
      obtain ⟨h1, h2, h3⟩ := ih (done ++ [none])
      refine ⟨?_, ?_, h3⟩
      · rw [h1]
        simp [pg, group, h, packC]
      · rw [h2, expand_cons, h]; simp
    · rw [if_neg h]
      refine ⟨rfl, rfl, ?_⟩
      rintro t ts ⟨⟩
      omega

/-- The loop invariant. -/
structure Good (s : RState α) (ce rest : List (Ent α)) : Prop where
  cur : s.cur = packCur ce
  room : ∀ t ts, s.todo = t :: ts → ce.length < t.mul
  irs : expand s.todo = (ce ++ rest).map Ent.ir

theorem mem_prefix_ir {t : MulIrrep} {ts : Irreps} {l : List (Ent α)}
    (h : expand (t :: ts) = l.map Ent.ir) : ∀ e ∈ l.take t.mul, e.ir = t.ir := by
  intro e he
  have : (l.map Ent.ir).take t.mul = List.replicate t.mul t.ir := by
    rw [← h, expand_cons, List.take_left' (by simp)]
  rw [← List.map_take] at this
  have hm : e.ir ∈ (l.take t.mul).map Ent.ir := List.mem_map_of_mem he
  rw [this] at hm
  exact List.eq_of_mem_replicate hm

/-- The state after `current_array` has become `cur`. -/
def settle (done : List (Chunk α)) (t : MulIrrep) (ts : Irreps) (cur : Cur α) : RState α :=
  if cur.mul = t.mul then
    ⟨(skipZeros (done ++ [cur.chunk]) ts).1, (skipZeros (done ++ [cur.chunk]) ts).2, .count 0⟩
  else ⟨done, t :: ts, cur⟩

theorem settle_spec {done : List (Chunk α)} {t : MulIrrep} {ts : Irreps} {ce R : List (Ent α)}
    (hok : ∀ e ∈ ce, e.Ok) (hle : ce.length ≤ t.mul) (hi : expand (t :: ts) = (ce ++ R).map Ent.ir) :
    ∃ ce', Good (settle done t ts (packCur ce)) ce' R ∧ (∀ e ∈ ce', e.Ok) ∧
      (settle done t ts (packCur ce)).done ++ pg (settle done t ts (packCur ce)).todo (ce' ++ R) =
        done ++ pg (t :: ts) (ce ++ R) := by
  unfold settle
  rw [packCur_mul]
  by_cases hf : ce.length = t.mul
  · rw [if_pos hf, packCur_chunk]
    obtain ⟨z1, z2, z3⟩ := skipZeros_spec (done ++ [packC ce]) ts R
    refine ⟨[], ⟨by simp [packCur], fun t' ts' ht' => z3 t' ts' ht', ?_⟩, by simp, ?_⟩
    · simp only [List.nil_append]
      rw [z2]
      have := congrArg (List.drop t.mul) hi
      rw [expand_cons, List.drop_left' (by simp), ← List.map_drop, List.drop_left' hf] at this
      exact this
    · simp only [List.nil_append]
      rw [z1]
      simp only [pg, group, List.map_cons, List.take_left' hf, List.drop_left' hf]
      simp
  · rw [if_neg hf]
    refine ⟨ce, ⟨rfl, ?_, hi⟩, hok, rfl⟩
    rintro t' ts' ⟨⟩
    omega

theorem rechunkInner_zero (d fuel : Nat) (y : Chunk α) (s : RState α) :
    rechunkInner d fuel 0 y s = .ok s := by
  cases fuel <;> simp [rechunkInner]

theorem rechunkInner_spec {ir : Irrep} (fuel mul : Nat) (y : Chunk α) (s : RState α)
    (ce es R : List (Ent α)) (hfuel : mul ≤ fuel) (hes : es.length = mul) (hy : Repr es y)
    (hok : ∀ e ∈ es, e.Ok ∧ e.ir = ir) (hce : ∀ e ∈ ce, e.Ok) (g : Good s ce (es ++ R)) :
    ∃ s' ce', rechunkInner ir.dim fuel mul y s = .ok s' ∧ Good s' ce' R ∧ (∀ e ∈ ce', e.Ok) ∧
      s'.done ++ pg s'.todo (ce' ++ R) = s.done ++ pg s.todo (ce ++ (es ++ R)) := by
  induction fuel generalizing mul y s ce es with
  | zero =>
    have : mul = 0 := by omega
    subst this
    have : es = [] := List.eq_nil_of_length_eq_zero hes
    subst this
    exact ⟨s, ce, rechunkInner_zero _ _ _ _, by simpa using g, hce, by simp⟩
  | succ fuel ih =>
    cases mul with
    | zero =>
      have : es = [] := List.eq_nil_of_length_eq_zero hes
      subst this
      exact ⟨s, ce, rechunkInner_zero _ _ _ _, by simpa using g, hce, by simp⟩
    | succ mul =>
      obtain ⟨done, todo, cur⟩ := s
      obtain ⟨gc, gr, gi⟩ := g
      simp only at gc gr gi
      subst gc
      have hesne : es ≠ [] := by intro h; simp [h] at hes
      cases todo with
      | nil =>
        have : (ce ++ (es ++ R)).length = 0 := by
          have := congrArg List.length gi
          simpa [expand] using this.symm
        simp at this; exact absurd this.2.1 hesne
      | cons t ts =>
        have hroom := gr t ts rfl
        have hpre := mem_prefix_ir gi
        have hceir : ∀ e ∈ ce, e.ir = t.ir := by
          intro e he
          apply hpre
          rw [List.take_append]
          rw [List.take_of_length_le (by omega)]
          simp [he]
        have hir : t.ir = ir := by
          cases es with
          | nil => exact absurd rfl hesne
          | cons e es =>
            have h1 : e.ir = t.ir := by
              apply hpre
              rw [List.take_append]
              obtain ⟨k, hk⟩ : ∃ k, t.mul - ce.length = k + 1 := ⟨t.mul - ce.length - 1, by omega⟩
              rw [hk]; simp
            rw [← h1, (hok e (by simp)).2]
        have hce' : ∀ e ∈ ce, e.Ok ∧ e.ir = ir := fun e he => ⟨hce e he, by rw [hceir e he, hir]⟩
        have key : ∀ (mul' : Nat) (y' : Chunk α) (cur : Cur α),
            (if cur.mul = t.mul then
              let (done, todo) := skipZeros (done ++ [cur.chunk]) ts
              rechunkInner ir.dim fuel mul' y' ⟨done, todo, .count 0⟩
            else rechunkInner ir.dim fuel mul' y' ⟨done, t :: ts, cur⟩) =
            rechunkInner ir.dim fuel mul' y' (settle done t ts cur) := by
          intro mul' y' cur
          unfold settle
          split <;> rfl
        simp only [rechunkInner, packCur_mul]
        rw [if_neg (by omega), key]
        by_cases hle : mul + 1 ≤ t.mul - ce.length
        · simp only [if_pos hle, rechunkInner_zero]
          have hext := extendCur_pack (ir := ir) hce' hok hy hesne
          rw [hes] at hext
          rw [hext]
          obtain ⟨ce1, g1, g2, g3⟩ := settle_spec (done := done) (ts := ts) (R := R) (t := t)
            (ce := ce ++ es) (by
              intro e he
              rcases List.mem_append.mp he with h | h
              · exact hce e h
              · exact (hok e h).1) (by simp; omega) (by rw [gi]; simp)
          exact ⟨_, ce1, rfl, g1, g2, by rw [g3]; simp⟩
        · simp only [if_neg hle]
          generalize hk : t.mul - ce.length = k at *
          have htl : (es.take k).length = k := by simp; omega
          have hext := extendCur_pack (ir := ir) (es := es.take k) hce'
            (fun e he => hok e (List.mem_of_mem_take he)) (hy.take k) (by
              intro h; rw [h] at htl; simp at htl; omega)
          rw [htl] at hext
          rw [hext]
          obtain ⟨ce1, g1, g2, g3⟩ := settle_spec (done := done) (ts := ts) (R := es.drop k ++ R) (t := t)
            (ce := ce ++ es.take k) (by
              intro e he
              rcases List.mem_append.mp he with h | h
              · exact hce e h
              · exact (hok e (List.mem_of_mem_take h)).1) (by simp; omega) (by
                rw [gi, List.append_assoc ce, ← List.append_assoc (es.take k), List.take_append_drop])
          obtain ⟨s', ce', e1, e2, e3, e4⟩ := ih (mul + 1 - k) _ _ ce1 (es.drop k) (by omega)
            (by simp; omega) (hy.drop k) (fun e he => hok e (List.mem_of_mem_drop he)) g2 g1
          refine ⟨s', ce', e1, e2, e3, ?_⟩
          rw [e4, g3, List.append_assoc ce, ← List.append_assoc (es.take k), List.take_append_drop]

/-- All entries of a list of terms and chunks. -/
def ents (ps : List (MulIrrep × Chunk α)) : List (Ent α) := ps.flatMap fun p => entsC p.1 p.2

theorem rechunkOuter_spec (ps : List (MulIrrep × Chunk α)) (s : RState α) (ce : List (Ent α))
    (hps : Shaped ps) (hce : ∀ e ∈ ce, e.Ok) (g : Good s ce (ents ps)) :
    ∃ s' ce', rechunkOuter ps s = .ok s' ∧ Good s' ce' [] ∧
      s'.done ++ pg s'.todo ce' = s.done ++ pg s.todo (ce ++ ents ps) := by
  induction ps generalizing s ce with
  | nil => exact ⟨s, ce, rfl, g, by simp [ents]⟩
  | cons p ps ih =>
    obtain ⟨m, y⟩ := p
    have hs : shapeOk m y = true := hps (m, y) (by simp)
    obtain ⟨k1, k2⟩ := entsC_ok hs
    have he : ents ((m, y) :: ps) = entsC m y ++ ents ps := by simp [ents]
    rw [he] at g
    obtain ⟨s1, ce1, e1, e2, e3, e4⟩ := rechunkInner_spec (ir := m.ir) m.mul m.mul y s ce (entsC m y)
      (ents ps) (Nat.le_refl _) k1 (entsC_repr m y) k2 hce g
    obtain ⟨s', ce', f1, f2, f3⟩ := ih s1 ce1 (fun q hq => hps q (by simp [hq])) e3 e2
    refine ⟨s', ce', by simp only [rechunkOuter, e1, f1], f2, ?_⟩
    rw [f3, e4, he]

/-- With the same sequence of irreps, the loops of `rechunk` produce the regrouped entries. -/
theorem rechunk_loops (ps : List (MulIrrep × Chunk α)) (new : Irreps) (hps : Shaped ps)
    (hi : expand new = (ents ps).map Ent.ir) :
    rechunkOuter ps ⟨(skipZeros [] new).1, (skipZeros ([] : List (Chunk α)) new).2, .count 0⟩ =
      .ok ⟨pg new (ents ps), [], .count 0⟩ := by
  obtain ⟨z1, z2, z3⟩ := skipZeros_spec ([] : List (Chunk α)) new (ents ps)
  obtain ⟨s', ce', e1, e2, e3⟩ := rechunkOuter_spec ps
    ⟨(skipZeros [] new).1, (skipZeros ([] : List (Chunk α)) new).2, .count 0⟩ [] hps (by simp)
    ⟨by simp [packCur], fun t ts h => z3 t ts h, by rw [z2]; simpa using hi⟩
  simp only [List.nil_append] at e3
  rw [z1] at e3
  rw [e1]
  obtain ⟨done, todo, cur⟩ := s'
  obtain ⟨c1, c2, c3⟩ := e2
  simp only [List.append_nil] at c1 c2 c3
  have hlen := congrArg List.length c3
  cases todo with
  | cons t ts =>
    have := c2 t ts rfl
    rw [expand_cons] at hlen
    simp at hlen; omega
  | nil =>
    have : ce' = [] := by
      apply List.eq_nil_of_length_eq_zero
      simpa [expand] using hlen.symm
    subst this
    simp only [pg, group, List.map_nil, List.append_nil, List.nil_append] at e3
    subst c1 e3
    simp [packCur, pg]

/-! ### the flags -/

/-- `rechunkFlags`, recursively. -/
def rf : Irreps → List Bool → List Bool
  | [], _ => []
  | m :: ms, cf => (cf.take m.dim).all id :: rf ms (cf.drop m.dim)

theorem rf_aux (full : List Bool) (ms : Irreps) (i : Nat) :
    (Irreps.slicesFrom i ms).map (fun (i, j) => ((full.take j).drop i).all id) =
      rf ms (full.drop i) := by
  induction ms generalizing i with
  | nil => rfl
  | cons m ms ih =>
    simp only [Irreps.slicesFrom, List.map_cons, rf, ih, List.drop_drop]
    congr 2
    rw [List.drop_take]
    congr 1
    omega

theorem rechunkFlags_eq (old : Irreps) (zs : List Bool) (new : Irreps) :
    rechunkFlags old zs new = rf new (columnFlags old zs) := by
  have := rf_aux (columnFlags old zs) new 0
  simpa [rechunkFlags, Irreps.slices] using this

def colf (es : List (Ent α)) : List Bool := es.flatMap fun e => List.replicate e.ir.dim e.flag
def flat (es : List (Ent α)) : List α := es.flatMap Ent.row

theorem colf_all (es : List (Ent α)) : (colf es).all id = es.all Ent.flag := by
  induction es with
  | nil => rfl
  | cons e es ih =>
    have : colf (e :: es) = List.replicate e.ir.dim e.flag ++ colf es := by simp [colf]
    rw [this, List.all_append, ih, List.all_cons]
    congr 1
    simp [Irrep.dim]

theorem group_spec {es : List (Ent α)} (new : Irreps) (hok : ∀ e ∈ es, e.Ok)
    (hi : expand new = es.map Ent.ir) :
    FlagsOk new (flat es) (rf new (colf es)) ∧ comp new (flat es) (rf new (colf es)) = pg new es := by
  induction new generalizing es with
  | nil =>
    have : es = [] := by simpa [expand] using hi.symm
    subst this
    exact ⟨rfl, rfl⟩
  | cons m ms ih =>
    have hsplit : es = es.take m.mul ++ es.drop m.mul := (List.take_append_drop _ _).symm
    have hlen := congrArg List.length hi
    rw [expand_cons] at hlen
    simp only [List.length_append, List.length_replicate, List.length_map] at hlen
    have htl : (es.take m.mul).length = m.mul := by simp; omega
    have hir := mem_prefix_ir hi
    have hd : expand ms = (es.drop m.mul).map Ent.ir := by
      have := congrArg (List.drop m.mul) hi
      rwa [expand_cons, List.drop_left' (by simp), ← List.map_drop] at this
    obtain ⟨i1, i2⟩ := ih (fun e he => hok e (List.mem_of_mem_drop he)) hd
    generalize es.take m.mul = u at *
    generalize hv : es.drop m.mul = v at *
    subst hsplit
    have hrows : ∀ r ∈ u.map Ent.row, r.length = m.ir.dim := by
      intro r hr
      obtain ⟨e, he, rfl⟩ := List.mem_map.mp hr
      rw [(hok e (by simp [he])).1, hir e he]
    have hfu : flat u = (u.map Ent.row).flatten := by simp [flat, List.flatMap]
    have hflen : (flat u).length = m.dim := by
      rw [hfu, List.length_flatten, List.map_congr_left (g := fun _ => m.ir.dim) hrows]
      simp only [List.map_const', List.length_map, List.sum_replicate_nat, htl]
      rfl
    have hclen : (colf u).length = m.dim := by
      have : ∀ (w : List (Ent α)), (∀ e ∈ w, e.ir = m.ir) → (colf w).length = w.length * m.ir.dim := by
        intro w hw
        induction w with
        | nil => simp [colf]
        | cons e w ih =>
          have : colf (e :: w) = List.replicate e.ir.dim e.flag ++ colf w := by simp [colf]
          rw [this, List.length_append, ih fun a ha => hw a (by simp [ha]), hw e (by simp)]
          simp [Nat.add_mul, Nat.add_comm]
      rw [this u hir, htl]; rfl
    have e1 : flat (u ++ v) = flat u ++ flat v := by simp [flat]
    have e2 : colf (u ++ v) = colf u ++ colf v := by simp [colf]
    rw [e1, e2]
    simp only [rf, FlagsOk, comp, pg, group, List.map_cons]
    rw [List.drop_left' hflen, List.take_left' hflen, List.drop_left' hclen, List.take_left' hclen,
      List.take_left' htl, List.drop_left' htl, colf_all]
    refine ⟨⟨by simp [hflen], ?_, i1⟩, ?_⟩
    · intro hz x hx
      have := rows_of_flagged (ir := m.ir) (es := u) (fun e he => ⟨hok e (by simp [he]), hir e he⟩) hz
      rw [hfu, this] at hx
      simp at hx
      exact hx.2
    · rw [i2]
      congr 1
      unfold packC
      split
      · rfl
      · rw [hfu]
        congr 1
        exact rows_of_flatten _ _ _ _ (by simp [htl]) hrows

/-! ### entries of an array -/

theorem ents_comp {ms : Irreps} {a : List α} {zs : List Bool} (h : FlagsOk ms a zs) :
    (∀ e ∈ ents (ms.zip (comp ms a zs)), e.Ok) ∧
    (ents (ms.zip (comp ms a zs))).map Ent.ir = expand ms ∧
    flat (ents (ms.zip (comp ms a zs))) = a ∧
    colf (ents (ms.zip (comp ms a zs))) = columnFlags ms zs := by
  obtain ⟨p1, p2, p3, p4, p5, p6⟩ := pairs_of_comp h
  generalize hps : ms.zip (comp ms a zs) = ps at *
  rw [← p6, ← p5, show expand ms = expand (ps.map Prod.fst) by rw [p2],
    show columnFlags ms = columnFlags (ps.map Prod.fst) by rw [p2]]
  clear h p2 p3 p4 p5 p6 hps
  induction ps with
  | nil => simp [ents, expand, flat, colf, columnFlags]
  | cons p ps ih =>
    obtain ⟨m, c⟩ := p
    have hs : shapeOk m c = true := p1 (m, c) (by simp)
    obtain ⟨k1, k2⟩ := entsC_ok hs
    obtain ⟨i1, i2, i3, i4⟩ := ih fun q hq => p1 q (by simp [hq])
    have he : ents ((m, c) :: ps) = entsC m c ++ ents ps := by simp [ents]
    rw [he]
    refine ⟨?_, ?_, ?_, ?_⟩
    · intro e hm
      rcases List.mem_append.mp hm with h | h
      · exact (k2 e h).1
      · exact i1 e h
    · simp only [List.map_append, i2, List.map_cons, expand_cons]
      congr 1
      rw [List.eq_replicate_iff]
      refine ⟨by simp [k1], ?_⟩
      intro b hb
      obtain ⟨e, h, rfl⟩ := List.mem_map.mp hb
      exact (k2 e h).2
    · have : flat (entsC m c ++ ents ps) = flat (entsC m c) ++ flat (ents ps) := by simp [flat]
      rw [this, i3, List.map_cons, List.flatten_cons]
      congr 1
      cases c with
      | none =>
        simp only [flat, entsC, flatChunk, List.flatMap]
        simp [MulIrrep.dim]
      | some r =>
        simp only [flat, entsC, flatChunk, List.flatMap, List.map_map]
        congr 1
        simp [Function.comp_def]
    · have : colf (entsC m c ++ ents ps) = colf (entsC m c) ++ colf (ents ps) := by simp [colf]
      rw [this, i4]
      simp only [columnFlags, List.map_cons, List.zip_cons_cons, List.flatten_cons]
      congr 1
      have hall : ∀ e ∈ entsC m c, e.ir = m.ir ∧ e.flag = c.isNone := by
        intro e h
        refine ⟨(k2 e h).2, ?_⟩
        cases c with
        | none => simp only [entsC] at h; rw [List.eq_of_mem_replicate h]; rfl
        | some r =>
          simp only [entsC, List.mem_map] at h
          obtain ⟨_, _, rfl⟩ := h; rfl
      rw [← k1]
      clear this he hs k1 k2 p1 i1 i2 i3 i4 ih
      generalize entsC m c = w at hall
      induction w with
      | nil => simp [colf]
      | cons e w ih =>
        have : colf (e :: w) = List.replicate e.ir.dim e.flag ++ colf w := by simp [colf]
        rw [this, ih fun a ha => hall a (by simp [ha]), (hall e (by simp)).1, (hall e (by simp)).2]
        simp only [List.length_cons, Nat.add_mul, Nat.one_mul]
        rw [Nat.add_comm, List.replicate_add]

theorem finalCheck_ok {ms : Irreps} {a : List α} {zs : List Bool} (h : FlagsOk ms a zs) :
    (ms.zip ((comp ms a zs).zip zs)).mapM finalCheck =
      (.ok ((ms.zip ((comp ms a zs).zip zs)).map fun _ => ()) : Except PyErr (List Unit)) := by
  induction ms generalizing a zs with
  | nil => rfl
  | cons m ms ih =>
    cases zs with
    | nil => rfl
    | cons z zs =>
      simp only [FlagsOk] at h
      simp only [comp, List.zip_cons_cons, List.mapM_cons, ih h.2.2, List.map_cons]
      have : finalCheck (m, (if z = true then none else some (rows m.mul m.ir.dim a)), z) = .ok () := by
        cases z
        · have hr := rows_row_length m.mul m.ir.dim a h.1
          simp [finalCheck, shapeOk, rows_length]
          exact fun r hr' => hr r hr'
        · rfl
      rw [this]; rfl

theorem rechunk_spec {x : IArr α} (hx : Inv x) {new : Irreps} (h : expand x.irreps = expand new) :
    ∃ y, x.rechunk new = .ok y ∧ Inv y ∧ y.irreps = new ∧ y.array = x.array := by
  unfold rechunk
  rw [if_neg (by simpa using (Irreps.simplify_eq_iff _ _).mpr h)]
  by_cases hn : x.irreps = new
  · rw [if_pos hn]; exact ⟨x, rfl, hx, hn, rfl⟩
  rw [if_neg hn]
  obtain ⟨e1, e2, e3, e4⟩ := ents_comp hx.flags
  obtain ⟨g1, g2⟩ := group_spec (es := ents (x.irreps.zip (comp x.irreps x.array x.zeroFlags))) new e1
    (by rw [e2, h])
  rw [e3, e4, ← rechunkFlags_eq] at g1 g2
  simp only
  cases hc : x.chunks? with
  | none =>
    simp only
    exact ⟨_, make_nocache g1, inv_nocache g1, rfl, rfl⟩
  | some cs =>
    simp only
    have hcs := hx.cache cs hc
    subst hcs
    obtain ⟨p1, -⟩ := pairs_of_comp hx.flags
    have hl := rechunk_loops _ new p1 (by rw [e2, h])
    have hr : rechunkChunks x.irreps (comp x.irreps x.array x.zeroFlags) new
        (rechunkFlags x.irreps x.zeroFlags new) =
        .ok (comp new x.array (rechunkFlags x.irreps x.zeroFlags new)) := by
      unfold rechunkChunks
      simp only [hl, ← g2, ne_eq, not_true_eq_false, if_false]
      rw [if_neg (by rw [comp_length g1.lengths.2]; simp), finalCheck_ok g1]
    rw [hr]
    exact ⟨_, make_cache g1, inv_cache g1, rfl, rfl⟩

end IArr
end E3nn

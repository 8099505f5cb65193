import Verif.Lemmas.PermGroup
import Mathlib.GroupTheory.Perm.Cycle.Concrete
import Mathlib.GroupTheory.Perm.Sign

/-! # Lemmas on `to_cycles` and `sign`, against Mathlib's permutations of `Fin n` -/

namespace E3nn.Perm

open Equiv

variable {n : Nat}

/-- The value tuple of a permutation of `Fin n`. -/
def ofEquiv (σ : Equiv.Perm (Fin n)) : List Nat := List.ofFn fun i => (σ i).val

theorem ofEquiv_getD (σ : Equiv.Perm (Fin n)) (i : Fin n) :
    (ofEquiv σ).getD i.val 0 = (σ i).val := by
  simp [ofEquiv, List.getD_eq_getElem?_getD]

/-- The list of points visited by the inner loop. -/
def orb (σ : Equiv.Perm (Fin n)) (x : Fin n) : List (Fin n) :=
  if σ x = x then [x] else σ.toList x

theorem cycleLoop_aux (σ : Equiv.Perm (Fin n)) (x : Fin n) (k : Nat)
    (hk : (σ ^ k) x = x) (hmin : ∀ j, 0 < j → j < k → (σ ^ j) x ≠ x) :
    ∀ (fuel j : Nat), j < k → k ≤ fuel + j →
      cycleLoop (ofEquiv σ) x.val fuel ((σ ^ j) x).val
        (((List.range (j + 1)).map fun i => ((σ ^ i) x).val)) =
      some ((List.range k).map fun i => ((σ ^ i) x).val) := by
  intro fuel
  induction fuel with
  | zero => intro j h1 h2; omega
  | succ fuel ih =>
    intro j h1 h2
    unfold cycleLoop
    rw [ofEquiv_getD]
    have hs : (σ ((σ ^ j) x)) = (σ ^ (j + 1)) x := by
      rw [pow_succ']; rfl
    rw [hs]
    by_cases he : j + 1 = k
    · rw [he, hk]; simp
    · have : (σ ^ (j + 1)) x ≠ x := hmin (j + 1) (by omega) (by omega)
      rw [if_pos (fun h => this (Fin.ext h))]
      have := ih (j + 1) (by omega) (by omega)
      rw [List.range_succ, List.map_append] at this
      exact this

theorem cycleLoop_eq (σ : Equiv.Perm (Fin n)) (x : Fin n) :
    cycleLoop (ofEquiv σ) x.val n x.val [x.val] = some ((orb σ x).map Fin.val) := by
  unfold orb
  split
  · rename_i hx
    have := cycleLoop_aux σ x 1 (by simpa using hx) (by omega) n 0 (by omega)
      (by have := x.pos; omega)
    simpa using this
  · rename_i hx
    have hxs : x ∈ σ.support := by simpa using hx
    have hl := σ.length_toList x
    have hpos := σ.length_toList_pos_of_mem_support x hxs
    have hk : (σ ^ (σ.toList x).length) x = x := by
      have := σ.pow_mod_card_support_cycleOf_self_apply (σ.toList x).length x
      rw [← hl] at this
      simpa using this.symm
    have hmin : ∀ j, 0 < j → j < (σ.toList x).length → (σ ^ j) x ≠ x := by
      intro j h1 h2 h3
      have e1 := σ.getElem_toList x j h2
      have e2 := σ.getElem_toList x 0 hpos
      rw [h3] at e1
      rw [pow_zero, Perm.one_apply] at e2
      have := (σ.nodup_toList x).getElem_inj_iff.mp (e1.trans e2.symm)
      omega
    have hle : (σ.toList x).length ≤ n := by
      have := (σ.nodup_toList x).length_le_card
      simpa using this
    have := cycleLoop_aux σ x _ hk hmin n 0 hpos (by omega)
    simp only [pow_zero, Perm.one_apply, Nat.zero_add, List.range_one, List.map_cons,
      List.map_nil] at this
    rw [this]
    congr 1
    apply List.ext_getElem
    · simp
    · intro i h1 h2
      simp [σ.getElem_toList]

theorem min?_map_val {l : List (Fin n)} {a : Nat} (h : (l.map Fin.val).min? = some a) :
    ∃ m ∈ l, m.val = a ∧ ∀ y ∈ l, m ≤ y := by
  rw [List.min?_eq_some_iff] at h
  obtain ⟨h1, h2⟩ := h
  obtain ⟨m, hm, rfl⟩ := List.mem_map.mp h1
  exact ⟨m, hm, rfl, fun y hy => h2 y.val (List.mem_map_of_mem hy)⟩

/-- `m` is moved by `σ` and is the smallest point of its cycle. -/
def MinPt (σ : Equiv.Perm (Fin n)) (m : Fin n) : Prop :=
  σ m ≠ m ∧ ∀ y, σ.SameCycle m y → m ≤ y

theorem rotateMin_eq (σ : Equiv.Perm (Fin n)) (x : Fin n) (hx : σ x ≠ x) :
    ∃ m, MinPt σ m ∧ σ.SameCycle x m ∧
      rotateMin ((σ.toList x).map Fin.val) = (σ.toList m).map Fin.val := by
  have hxs : x ∈ σ.support := by simpa using hx
  have hpos := σ.length_toList_pos_of_mem_support x hxs
  obtain ⟨a, ha⟩ : ∃ a, ((σ.toList x).map Fin.val).min? = some a := by
    rw [← Option.ne_none_iff_exists']
    intro h
    rw [List.min?_eq_none_iff, List.map_eq_nil_iff] at h
    simp [h] at hpos
  obtain ⟨m, hm, rfl, hmin⟩ := min?_map_val ha
  have hsame := (Perm.mem_toList_iff.mp hm).1
  obtain ⟨k, hk, hkm⟩ := List.getElem_of_mem hm
  have hidx : ((σ.toList x).map Fin.val).idxOf m.val = k := by
    have hnd : ((σ.toList x).map Fin.val).Nodup := (σ.nodup_toList x).map Fin.val_injective
    have := hnd.idxOf_getElem k (by simpa using hk)
    simpa [hkm] using this
  refine ⟨m, ⟨?_, ?_⟩, hsame, ?_⟩
  · have := hsame.mem_support_iff.mp hxs
    simpa using this
  · intro y hy
    exact hmin y (Perm.mem_toList_iff.mpr ⟨hsame.trans hy, hxs⟩)
  · unfold rotateMin
    simp only [ha, Option.getD_some, hidx]
    rw [← List.map_drop, ← List.map_take, ← List.map_append,
      ← List.rotate_eq_drop_append_take (by omega), ← Perm.toList_pow_apply_eq_rotate]
    rw [σ.getElem_toList] at hkm
    rw [hkm]

theorem mapM_some {α β : Type _} {l : List α} {f : α → Option β} {g : α → β}
    (h : ∀ a ∈ l, f a = some (g a)) : l.mapM f = some (l.map g) := by
  induction l with
  | nil => rfl
  | cons a l ih =>
    rw [List.mapM_cons, h a (by simp), ih (fun b hb => h b (by simp [hb]))]
    rfl

/-- Shape of the result of `to_cycles`. -/
theorem toCycles_spec (σ : Equiv.Perm (Fin n)) :
    ∃ cs, toCycles (ofEquiv σ) = some cs ∧ cs.Nodup ∧
      ∀ c, c ∈ cs ↔ ∃ m, MinPt σ m ∧ c = (σ.toList m).map Fin.val := by
  have hlen : (ofEquiv σ).length = n := by simp [ofEquiv]
  have hM : ((List.range (ofEquiv σ).length).mapM fun i =>
      cycleLoop (ofEquiv σ) i (ofEquiv σ).length i [i]) =
      some ((List.range n).map fun i =>
        if h : i < n then (orb σ ⟨i, h⟩).map Fin.val else []) := by
    rw [hlen]
    apply mapM_some
    intro i hi
    have hi' : i < n := by simpa using hi
    simp only [hi', dif_pos]
    exact cycleLoop_eq σ ⟨i, hi'⟩
  refine ⟨((((List.range n).map fun i =>
        if h : i < n then (orb σ ⟨i, h⟩).map Fin.val else []).filter
          fun c => decide (c.length ≥ 2)).map rotateMin).eraseDups, ?_, ?_, ?_⟩
  · unfold toCycles
    rw [hM]
    rfl
  · exact nodup_eraseDups _
  · intro c
    rw [List.mem_eraseDups, List.mem_map]
    constructor
    · rintro ⟨d, hd, rfl⟩
      rw [List.mem_filter, List.mem_map] at hd
      obtain ⟨⟨i, hi, rfl⟩, hd2⟩ := hd
      have hi' : i < n := by simpa using hi
      simp only [hi', dif_pos, orb] at hd2 ⊢
      split at hd2
      · simp at hd2
      · rename_i hx
        rw [if_neg hx]
        obtain ⟨m, h1, _, h3⟩ := rotateMin_eq σ ⟨i, hi'⟩ hx
        exact ⟨m, h1, h3⟩
    · rintro ⟨m, hm, rfl⟩
      refine ⟨(σ.toList m).map Fin.val, ?_, ?_⟩
      · rw [List.mem_filter, List.mem_map]
        refine ⟨⟨m.val, by simp, ?_⟩, ?_⟩
        · simp only [m.isLt, dif_pos, orb, if_neg hm.1, Fin.eta]
        · have : 2 ≤ (σ.toList m).length :=
            Perm.two_le_length_toList_iff_mem_support.mpr (by simpa using hm.1)
          simpa using this
      · obtain ⟨m', h1, h2, h3⟩ := rotateMin_eq σ m hm.1
        have e : m = m' := le_antisymm (hm.2 m' h2) (h1.2 m h2.symm)
        rw [h3, ← e]

theorem minPt_exists (σ : Equiv.Perm (Fin n)) (x : Fin n) (hx : σ x ≠ x) :
    ∃ m, MinPt σ m ∧ σ.SameCycle x m := by
  obtain ⟨m, h1, h2, _⟩ := rotateMin_eq σ x hx
  exact ⟨m, h1, h2⟩

theorem minPt_unique {σ : Equiv.Perm (Fin n)} {m m' : Fin n} (h : MinPt σ m) (h' : MinPt σ m')
    (hs : σ.SameCycle m m') : m = m' :=
  le_antisymm (h.2 m' hs) (h'.2 m hs.symm)

theorem toList_inj {σ : Equiv.Perm (Fin n)} {m m' : Fin n} (h : MinPt σ m) (h' : MinPt σ m')
    (hs : (σ.toList m).map Fin.val = (σ.toList m').map Fin.val) : m = m' := by
  have e := Fin.val_injective.list_map hs
  apply minPt_unique h h'
  have : m ∈ σ.toList m := Perm.mem_toList_iff.mpr ⟨Perm.SameCycle.refl _ _, by simpa using h.1⟩
  rw [e] at this
  exact (Perm.mem_toList_iff.mp this).1.symm

theorem sign_fold (cs : List (List Nat)) (s : Int) :
    cs.foldl (fun s c => if c.length % 2 = 0 then -s else s) s =
      s * (cs.map fun c => -(-1 : Int) ^ c.length).prod := by
  induction cs generalizing s with
  | nil => simp
  | cons c cs ih =>
    rw [List.foldl_cons, ih, List.map_cons, List.prod_cons]
    split
    · rename_i h
      rw [Even.neg_one_pow (Nat.even_iff.mpr h)]; ring
    · rename_i h
      rw [Odd.neg_one_pow (Nat.odd_iff.mpr (by omega))]; ring

theorem sign_eq (σ : Equiv.Perm (Fin n)) :
    sign (ofEquiv σ) = some ((Equiv.Perm.sign σ : ℤˣ) : ℤ) := by
  obtain ⟨cs, h1, h2, h3⟩ := toCycles_spec σ
  unfold sign
  rw [h1]
  simp only [Option.bind_eq_bind, Option.bind_some, Option.pure_def, Option.some.injEq]
  rw [sign_fold, one_mul]
  -- the list of smallest points
  have hch : ∀ c : {c // c ∈ cs}, ∃ m, MinPt σ m ∧ c.1 = (σ.toList m).map Fin.val :=
    fun c => (h3 c.1).mp c.2
  choose f hf1 hf2 using hch
  set L : List (Equiv.Perm (Fin n)) := cs.attach.map fun c => σ.cycleOf (f c) with hL
  have hsame : ∀ c d : {c // c ∈ cs}, σ.SameCycle (f c) (f d) → c = d := by
    intro c d hcd
    have := minPt_unique (hf1 c) (hf1 d) hcd
    apply Subtype.ext
    rw [hf2 c, hf2 d, this]
  have hdisj : ∀ c d : {c // c ∈ cs}, c ≠ d → (σ.cycleOf (f c)).Disjoint (σ.cycleOf (f d)) := by
    intro c d hcd x
    by_cases hc : σ.SameCycle (f c) x
    · right
      apply Perm.cycleOf_apply_of_not_sameCycle
      intro hd
      exact hcd (hsame c d (hc.trans hd.symm))
    · left
      exact Perm.cycleOf_apply_of_not_sameCycle hc
  have hnd : cs.attach.Nodup := List.nodup_attach.mpr h2
  have hLd : L.Pairwise Perm.Disjoint := by
    rw [hL, List.pairwise_map]
    exact hnd.imp (fun {c d} hcd => hdisj c d hcd)
  have hLc : ∀ g ∈ L, g.IsCycle := by
    intro g hg
    rw [hL, List.mem_map] at hg
    obtain ⟨c, _, rfl⟩ := hg
    exact Perm.isCycle_cycleOf σ (hf1 c).1
  have hLn : L.Nodup := Perm.nodup_of_pairwise_disjoint_cycles hLc hLd
  have hset : σ.cycleFactorsFinset = L.toFinset := by
    ext g
    rw [List.mem_toFinset]
    constructor
    · intro hg
      obtain ⟨hcyc, hap⟩ := Perm.mem_cycleFactorsFinset_iff.mp hg
      obtain ⟨x, hx, _⟩ := hcyc
      have hxs : x ∈ g.support := by simpa using hx
      have hgx : g = σ.cycleOf x := Perm.cycle_is_cycleOf hxs hg
      have hsx : σ x ≠ x := by rw [← hap x hxs]; exact hx
      obtain ⟨m, hm, hxm⟩ := minPt_exists σ x hsx
      have hmem := (h3 ((σ.toList m).map Fin.val)).mpr ⟨m, hm, rfl⟩
      rw [hL, List.mem_map]
      refine ⟨⟨_, hmem⟩, by simp, ?_⟩
      have : f ⟨_, hmem⟩ = m := toList_inj (hf1 _) hm (hf2 ⟨_, hmem⟩).symm
      rw [this, hgx]
      exact hxm.symm.cycleOf_eq
    · intro hg
      rw [hL, List.mem_map] at hg
      obtain ⟨c, _, rfl⟩ := hg
      exact Perm.cycleOf_mem_cycleFactorsFinset_iff.mpr (by simpa using (hf1 c).1)
  have hprod := ((Perm.cycleFactorsFinset_eq_list_toFinset hLn).mp hset).2.2
  have hs : (Equiv.Perm.sign σ : ℤˣ) = (cs.attach.map fun c => -(-1 : ℤˣ) ^ c.1.length).prod := by
    conv_lhs => rw [← hprod, map_list_prod, hL, List.map_map]
    congr 1
    apply List.map_congr_left
    intro c _
    simp only [Function.comp]
    rw [(Perm.isCycle_cycleOf σ (hf1 c).1).sign]
    congr 2
    conv_rhs => rw [hf2 c]
    simp
  rw [hs]
  rw [show ((cs.attach.map fun c => -(-1 : ℤˣ) ^ c.1.length).prod : ℤˣ) =
    (cs.map fun c => -(-1 : ℤˣ) ^ c.length).prod by
      rw [← List.attach_map_subtype_val cs, List.map_map]
      simp [Function.comp_def]]
  clear hs hprod hset hLn hLc hLd hnd hdisj hsame hL L hf1 hf2 f h1 h2 h3
  induction cs with
  | nil => simp
  | cons c cs ih =>
    rw [List.map_cons, List.prod_cons, ih, List.map_cons, List.prod_cons]
    simp

end E3nn.Perm

import Verif.Model.PermRepr
import Verif.Lemmas.PermGroup
import Verif.Lemmas.Sort
import Mathlib.Algebra.BigOperators.Ring.Finset
import Mathlib.Algebra.BigOperators.Ring.List
import Mathlib.Tactic.LinearCombination
import Mathlib.Tactic.FieldSimp

/-! Index tuples and signed permutation groups. -/

namespace E3nn.PermRepr

open E3nn.Perm

/-! ### Index tuples -/

theorem mem_fullBase {dims x : List ℕ} : x ∈ fullBase dims ↔ List.Forall₂ (· < ·) x dims := by
  induction dims generalizing x with
  | nil => simp [fullBase]
  | cons d ds ih =>
    unfold fullBase
    simp only [List.mem_flatMap, List.mem_range, List.mem_map]
    constructor
    · rintro ⟨k, hk, y, hy, rfl⟩
      exact .cons hk (ih.mp hy)
    · intro h
      cases h with
      | cons h1 h2 => exact ⟨_, h1, _, ih.mpr h2, rfl⟩

theorem forall₂_iff {x dims : List ℕ} : List.Forall₂ (· < ·) x dims ↔ x.length = dims.length ∧ ∀ i < dims.length, x.getD i 0 < dims.getD i 0 := by
  rw [List.forall₂_iff_get]
  constructor
  · rintro ⟨h1, h2⟩
    refine ⟨h1, fun i hi => ?_⟩
    have := h2 i (by omega) hi
    rw [List.getD_eq_getElem _ _ (by omega), List.getD_eq_getElem _ _ hi]
    simpa using this
  · rintro ⟨h1, h2⟩
    refine ⟨h1, fun i h3 h4 => ?_⟩
    have := h2 i h4
    rw [List.getD_eq_getElem _ _ h3, List.getD_eq_getElem _ _ h4] at this
    simpa using this

theorem foldl_flat (l : List (ℕ × ℕ)) (j : ℕ) : l.foldl (fun j q => j * q.2 + q.1) j = j * (l.map Prod.snd).prod + l.foldl (fun j q => j * q.2 + q.1) 0 := by
  induction l generalizing j with
  | nil => simp
  | cons a l ih =>
    simp only [List.foldl_cons, List.map_cons, List.prod_cons]
    rw [ih, ih (0 * a.2 + a.1)]
    ring

theorem flat_cons (d : ℕ) (ds : List ℕ) (k : ℕ) {x : List ℕ} (hx : x.length = ds.length) : flat (d :: ds) (k :: x) = k * ds.prod + flat ds x := by
  unfold flat
  rw [List.zip_cons_cons, List.foldl_cons, foldl_flat]
  have : (x.zip ds).map Prod.snd = ds := List.map_snd_zip (by omega)
  rw [this]; simp

/-- The tuples are listed in the order of their positions. -/
theorem fullBase_flat (dims : List ℕ) : (fullBase dims).map (flat dims) = List.range dims.prod := by
  induction dims with
  | nil => simp [fullBase, flat]
  | cons d ds ih =>
    unfold fullBase
    rw [List.map_flatMap, List.prod_cons]
    have h : ∀ k, ((fullBase ds).map (k :: ·)).map (flat (d :: ds)) = (List.range ds.prod).map (k * ds.prod + ·) := by
      intro k
      rw [List.map_map, ← ih, List.map_map]
      refine List.map_congr_left fun x hx => ?_
      exact flat_cons d ds k (List.Forall₂.length_eq (mem_fullBase.mp hx))
    simp only [h]
    clear h
    generalize ds.prod = n
    induction d with
    | zero => simp
    | succ d ihd =>
      rw [List.range_succ, List.flatMap_append, ihd, Nat.succ_mul, List.range_add]
      simp

theorem fullBase_nodup (dims : List ℕ) : (fullBase dims).Nodup := by
  have := fullBase_flat dims
  exact List.Nodup.of_map (flat dims) (by rw [this]; exact List.nodup_range)

theorem flat_inj {dims x y : List ℕ} (hx : x ∈ fullBase dims) (hy : y ∈ fullBase dims) (h : flat dims x = flat dims y) : x = y :=
  List.inj_on_of_nodup_map (by rw [fullBase_flat]; exact List.nodup_range) hx hy h

theorem flat_lt {dims x : List ℕ} (hx : x ∈ fullBase dims) : flat dims x < dims.prod := by
  have : flat dims x ∈ (fullBase dims).map (flat dims) := List.mem_map.mpr ⟨x, hx, rfl⟩
  rwa [fullBase_flat, List.mem_range] at this

/-- The scalar product of two rows as a sum over the tuples. -/
theorem dotRows_eq {dims : List ℕ} {a b : List ℝ} (ha : a.length = dims.prod) (hb : b.length = dims.prod) :
    dotRows a b = ((fullBase dims).map fun x => a.getD (flat dims x) 0 * b.getD (flat dims x) 0).sum := by
  have h1 : ((fullBase dims).map fun x => a.getD (flat dims x) 0 * b.getD (flat dims x) 0) = (List.range dims.prod).map fun j => a.getD j 0 * b.getD j 0 := by
    rw [← fullBase_flat, List.map_map]; rfl
  rw [h1]
  unfold dotRows
  congr 1
  apply List.ext_getElem (by simp [ha, hb])
  intro i h2 h3
  simp only [List.length_zipWith] at h2
  simp only [List.getElem_zipWith, List.getElem_map, List.getElem_range]
  rw [List.getD_eq_getElem _ _ (by omega), List.getD_eq_getElem _ _ (by omega)]

/-! ### Signed permutation groups -/

/-- `G` is a group of signed permutations of `n` indices. -/
structure IsSGroup (n : ℕ) (G : Finset SPerm) : Prop where
  sign : ∀ q ∈ G, q.1 = 1 ∨ q.1 = -1
  perm : ∀ q ∈ G, q.2.Perm (List.range n)
  one : ((1, identity n) : SPerm) ∈ G
  inv : ∀ q ∈ G, ((q.1, Perm.inv q.2) : SPerm) ∈ G
  comp : ∀ q ∈ G, ∀ r ∈ G, ((q.1 * r.1, Perm.comp q.2 r.2) : SPerm) ∈ G

theorem permute_comp {n : ℕ} {x p q : List ℕ} (hp : p.Perm (List.range n)) (hq : q.Perm (List.range n)) : permute (permute x p) q = permute x (Perm.comp p q) := by
  unfold permute Perm.comp
  rw [List.map_map, len_of hp]
  apply List.ext_getElem (by simp [len_of hq])
  intro i h1 h2
  simp only [List.length_map] at h1
  have hlt : q[i] < n := (mem_of hq _).mp (List.getElem_mem h1)
  simp only [List.getElem_map, Function.comp_apply, List.getElem_range]
  rw [List.getD_eq_getElem q _ h1]
  rw [List.getD_eq_getElem (p.map _) _ (by simpa [len_of hp] using hlt), List.getElem_map, List.getD_eq_getElem p _ (by simpa [len_of hp] using hlt)]

theorem permute_id {n : ℕ} {x : List ℕ} (hx : x.length = n) : permute x (identity n) = x := by
  unfold permute identity
  apply List.ext_getElem (by simp [hx])
  intro i h1 h2
  simp only [List.getElem_map, List.getElem_range]
  exact List.getD_eq_getElem _ _ h2

/-- `dims` is compatible with the permutations. -/
def Compat (G : Finset SPerm) (dims : List ℕ) : Prop := ∀ q ∈ G, permute dims q.2 = dims

theorem permute_mem {n : ℕ} {G : Finset SPerm} (hG : IsSGroup n G) {dims : List ℕ} (hn : dims.length = n) (hd : Compat G dims) {x : List ℕ} (hx : x ∈ fullBase dims) {q : SPerm} (hq : q ∈ G) :
    permute x q.2 ∈ fullBase dims := by
  rw [mem_fullBase, forall₂_iff] at hx ⊢
  have hp := hG.perm q hq
  refine ⟨by unfold permute; rw [List.length_map, len_of hp, hn], fun i hi => ?_⟩
  have hlt : q.2.getD i 0 < n := getD_lt hp (by omega)
  have e1 : (permute x q.2).getD i 0 = x.getD (q.2.getD i 0) 0 := by
    unfold permute
    rw [List.getD_eq_getElem _ _ (by rw [List.length_map, len_of hp]; omega), List.getElem_map, List.getD_eq_getElem q.2 _ (by rw [len_of hp]; omega)]
  have e2 : dims.getD i 0 = dims.getD (q.2.getD i 0) 0 := by
    conv_lhs => rw [← hd q hq]
    unfold permute
    rw [List.getD_eq_getElem _ _ (by rw [List.length_map, len_of hp]; omega), List.getElem_map, List.getD_eq_getElem q.2 _ (by rw [len_of hp]; omega)]
  rw [e1, e2]
  exact hx.2 _ (by omega)

theorem mem_orbit {G : Finset SPerm} {x : List ℕ} {r : SPerm} : r ∈ orbit G x ↔ ∃ q ∈ G, r = (q.1, permute x q.2) := by
  unfold orbit
  rw [Finset.mem_image]
  constructor
  · rintro ⟨q, h, rfl⟩; exact ⟨q, h, rfl⟩
  · rintro ⟨q, h, rfl⟩; exact ⟨q, h, rfl⟩

theorem mem_negOrbit {xs : Finset SPerm} {r : SPerm} : r ∈ negOrbit xs ↔ (-r.1, r.2) ∈ xs := by
  unfold negOrbit
  rw [Finset.mem_image]
  constructor
  · rintro ⟨q, h, rfl⟩; simpa using h
  · intro h; exact ⟨_, h, by simp⟩

variable {n : ℕ} {G : Finset SPerm} {dims : List ℕ}

theorem orbit_self (hG : IsSGroup n G) {x : List ℕ} (hx : x.length = n) : ((1, x) : SPerm) ∈ orbit G x :=
  mem_orbit.mpr ⟨_, hG.one, by rw [permute_id hx]⟩

theorem orbit_sign (hG : IsSGroup n G) {x : List ℕ} {r : SPerm} (h : r ∈ orbit G x) : r.1 = 1 ∨ r.1 = -1 := by
  obtain ⟨q, hq, rfl⟩ := mem_orbit.mp h
  exact hG.sign q hq

theorem orbit_len (hG : IsSGroup n G) {x : List ℕ} {r : SPerm} (h : r ∈ orbit G x) : r.2.length = n := by
  obtain ⟨q, hq, rfl⟩ := mem_orbit.mp h
  unfold permute; rw [List.length_map, len_of (hG.perm q hq)]

theorem orbit_trans (hG : IsSGroup n G) {x : List ℕ} {r t : SPerm} (h : r ∈ orbit G x) (h2 : t ∈ orbit G r.2) : (r.1 * t.1, t.2) ∈ orbit G x := by
  obtain ⟨q, hq, rfl⟩ := mem_orbit.mp h
  obtain ⟨q', hq', rfl⟩ := mem_orbit.mp h2
  refine mem_orbit.mpr ⟨_, hG.comp q hq q' hq', ?_⟩
  simp only
  rw [permute_comp (hG.perm q hq) (hG.perm q' hq')]

theorem orbit_symm (hG : IsSGroup n G) {x : List ℕ} (hx : x.length = n) {r : SPerm} (h : r ∈ orbit G x) : (r.1, x) ∈ orbit G r.2 := by
  obtain ⟨q, hq, rfl⟩ := mem_orbit.mp h
  refine mem_orbit.mpr ⟨_, hG.inv q hq, ?_⟩
  simp only
  rw [permute_comp (hG.perm q hq) (inv_perm (hG.perm q hq)), comp_inv (hG.perm q hq), permute_id hx]

/-- In a good orbit each tuple has one sign. -/
theorem orbit_fun (hG : IsSGroup n G) {x : List ℕ} (hx : x.length = n) (hgood : ((-1, x) : SPerm) ∉ orbit G x) {s t : ℤ} {e : List ℕ} (hs : (s, e) ∈ orbit G x) (ht : (t, e) ∈ orbit G x) : s = t := by
  by_contra hne
  apply hgood
  have h1 := orbit_symm hG hx ht
  have h2 := orbit_trans hG hs h1
  have a := orbit_sign hG hs
  have b := orbit_sign hG ht
  simp only at a b h2
  have : s * t = -1 := by rcases a with rfl | rfl <;> rcases b with rfl | rfl <;> simp_all
  rwa [this] at h2

theorem sq_sign {s : ℤ} (h : s = 1 ∨ s = -1) : s * s = 1 := by rcases h with rfl | rfl <;> rfl

/-- The orbit of a member. -/
theorem orbit_member (hG : IsSGroup n G) {x : List ℕ} (hx : x.length = n) {r : SPerm} (h : r ∈ orbit G x) (t : SPerm) : t ∈ orbit G r.2 ↔ (r.1 * t.1, t.2) ∈ orbit G x := by
  constructor
  · exact orbit_trans hG h
  · intro h2
    have h3 := orbit_symm hG hx h
    have := orbit_trans (r := (r.1, x)) hG h3 (t := (r.1 * t.1, t.2)) h2
    simp only at this
    rwa [← mul_assoc, sq_sign (orbit_sign hG h), one_mul] at this

theorem pair_member (hG : IsSGroup n G) {x : List ℕ} (hx : x.length = n) {r : SPerm} (h : r ∈ orbit G x) :
    ({orbit G r.2, negOrbit (orbit G r.2)} : Finset (Finset SPerm)) = {orbit G x, negOrbit (orbit G x)} := by
  rcases orbit_sign hG h with h1 | h1
  · have : orbit G r.2 = orbit G x := by
      ext t; rw [orbit_member hG hx h, h1, one_mul]
    rw [this]
  · have e1 : orbit G r.2 = negOrbit (orbit G x) := by
      ext t; rw [orbit_member hG hx h, h1, mem_negOrbit]; simp
    have e2 : negOrbit (orbit G r.2) = orbit G x := by
      ext t; rw [mem_negOrbit, orbit_member hG hx h, h1]; simp
    rw [e1, ← e1, e2, e1, Finset.pair_comm]

theorem good_member (hG : IsSGroup n G) {x : List ℕ} (hx : x.length = n) {r : SPerm} (h : r ∈ orbit G x) (hgood : ((-1, x) : SPerm) ∉ orbit G x) : ((-1, r.2) : SPerm) ∉ orbit G r.2 := by
  intro hb
  rw [orbit_member hG hx h] at hb
  simp only [mul_neg, mul_one] at hb
  have h2 : ((r.1, r.2) : SPerm) ∈ orbit G x := h
  have := orbit_fun hG hx hgood hb h2
  have hs := orbit_sign hG h
  omega

/-! ### The rows -/

/-- A list of signed tuples that is one of the two choices of a good orbit. -/
structure IsRow (G : Finset SPerm) (dims : List ℕ) (l : List SPerm) : Prop where
  nodup : l.Nodup
  ex : ∃ x ∈ fullBase dims, ((-1, x) : SPerm) ∉ orbit G x ∧ ∃ s : ℤ, (s = 1 ∨ s = -1) ∧ ∀ r : SPerm, r ∈ l ↔ (s * r.1, r.2) ∈ orbit G x

theorem len_of_mem {x : List ℕ} (hn : dims.length = n) (hx : x ∈ fullBase dims) : x.length = n := by
  rw [← hn]; exact (List.Forall₂.length_eq (mem_fullBase.mp hx))

theorem orbit_box (hG : IsSGroup n G) (hn : dims.length = n) (hd : Compat G dims) {x : List ℕ} (hx : x ∈ fullBase dims) {r : SPerm} (h : r ∈ orbit G x) : r.2 ∈ fullBase dims := by
  obtain ⟨q, hq, rfl⟩ := mem_orbit.mp h
  exact permute_mem hG hn hd hx hq

namespace IsRow

variable {l : List SPerm}

theorem box (hG : IsSGroup n G) (hn : dims.length = n) (hd : Compat G dims) (hl : IsRow G dims l) {r : SPerm} (h : r ∈ l) : r.2 ∈ fullBase dims := by
  obtain ⟨x, hx, _, s, _, hm⟩ := hl.ex
  exact orbit_box (r := (s * r.1, r.2)) hG hn hd hx ((hm r).mp h)

theorem sign (hG : IsSGroup n G) (hl : IsRow G dims l) {r : SPerm} (h : r ∈ l) : r.1 = 1 ∨ r.1 = -1 := by
  obtain ⟨x, hx, _, s, hs, hm⟩ := hl.ex
  have := orbit_sign hG ((hm r).mp h)
  simp only at this
  rcases hs with rfl | rfl <;> rcases this with h | h <;> omega

theorem func (hG : IsSGroup n G) (hn : dims.length = n) (hl : IsRow G dims l) {s t : ℤ} {e : List ℕ} (h1 : (s, e) ∈ l) (h2 : (t, e) ∈ l) : s = t := by
  obtain ⟨x, hx, hg, u, hu, hm⟩ := hl.ex
  have := orbit_fun hG (len_of_mem hn hx) hg ((hm (s, e)).mp h1) ((hm (t, e)).mp h2)
  simp only at this
  rcases hu with rfl | rfl <;> omega

theorem ne_nil (hG : IsSGroup n G) (hn : dims.length = n) (hl : IsRow G dims l) : l ≠ [] := by
  obtain ⟨x, hx, hg, u, hu, hm⟩ := hl.ex
  refine List.ne_nil_of_mem ((hm (u, x)).mpr ?_)
  simp only
  rw [sq_sign hu]
  exact orbit_self hG (len_of_mem hn hx)

theorem act (hG : IsSGroup n G) (hl : IsRow G dims l) {r q : SPerm} (h : r ∈ l) (hq : q ∈ G) : (r.1 * q.1, permute r.2 q.2) ∈ l := by
  obtain ⟨x, hx, hg, u, hu, hm⟩ := hl.ex
  rw [hm] at h ⊢
  have := orbit_trans hG h (t := (q.1, permute r.2 q.2)) (mem_orbit.mpr ⟨q, hq, rfl⟩)
  simp only at this ⊢
  rwa [mul_assoc] at this

end IsRow

/-- Setting entries of a list, when the positions are distinct. -/
theorem foldl_set (f : SPerm → ℕ) (v : SPerm → ℝ) (l : List SPerm) (init : List ℝ) (hlt : ∀ r ∈ l, f r < init.length) (hinj : (l.map f).Nodup) (j : ℕ) :
    (l.foldl (fun r q => r.set (f q) (v q)) init).length = init.length ∧
    (∀ q ∈ l, (l.foldl (fun r q => r.set (f q) (v q)) init).getD (f q) 0 = v q) ∧
    ((∀ q ∈ l, f q ≠ j) → (l.foldl (fun r q => r.set (f q) (v q)) init).getD j 0 = init.getD j 0) := by
  induction l generalizing init with
  | nil => simp
  | cons a l ih =>
    simp only [List.map_cons, List.nodup_cons] at hinj
    have hlt' : ∀ r ∈ l, f r < (init.set (f a) (v a)).length := fun r hr => by rw [List.length_set]; exact hlt r (by simp [hr])
    obtain ⟨h1, h2, h3⟩ := ih (init.set (f a) (v a)) hlt' hinj.2
    rw [List.length_set] at h1
    simp only [List.foldl_cons]
    refine ⟨h1, fun q hq => ?_, fun hj => ?_⟩
    · rcases List.mem_cons.mp hq with rfl | hq
      · -- not touched later
        clear h1 h2 h3
        have key : ∀ (l : List SPerm) (init : List ℝ), (f q) ∉ l.map f → (l.foldl (fun r q => r.set (f q) (v q)) init).getD (f q) 0 = init.getD (f q) 0 := by
          intro l
          induction l with
          | nil => intro init _; rfl
          | cons b l ihl =>
            intro init hb
            simp only [List.map_cons, List.mem_cons, not_or] at hb
            rw [List.foldl_cons, ihl _ hb.2]
            simp only [List.getD_eq_getElem?_getD, List.getElem?_set]
            rw [if_neg (Ne.symm hb.1)]
        rw [key l _ hinj.1]
        simp [List.getD_eq_getElem?_getD, List.getElem?_set, hlt q (by simp)]
      · exact h2 q hq
    · rw [h3 (fun q hq => hj q (by simp [hq]))]
      simp only [List.getD_eq_getElem?_getD, List.getElem?_set]
      rw [if_neg (hj a (by simp))]

/-- The vector of a row. -/
noncomputable def vec (dims : List ℕ) (l : List SPerm) : List ℝ :=
  l.foldl (fun r q => r.set (flat dims q.2) ((q.1 : ℝ) / Real.sqrt l.length)) (List.replicate dims.prod 0)

theorem vec_spec (hG : IsSGroup n G) (hn : dims.length = n) (hd : Compat G dims) {l : List SPerm} (hl : IsRow G dims l) :
    (vec dims l).length = dims.prod ∧ (∀ r ∈ l, (vec dims l).getD (flat dims r.2) 0 = (r.1 : ℝ) / Real.sqrt l.length) ∧
      ∀ x ∈ fullBase dims, (∀ s, ((s, x) : SPerm) ∉ l) → (vec dims l).getD (flat dims x) 0 = 0 := by
  have hinj : (l.map fun q : SPerm => flat dims q.2).Nodup := by
    refine hl.nodup.map_on fun a ha b hb hab => ?_
    have h := flat_inj (hl.box hG hn hd ha) (hl.box hG hn hd hb) hab
    have := hl.func hG hn (s := a.1) (t := b.1) (e := a.2) ha (by rw [h]; exact hb)
    exact Prod.ext this h
  have hlt : ∀ r ∈ l, flat dims r.2 < (List.replicate dims.prod (0 : ℝ)).length := fun r hr => by
    rw [List.length_replicate]; exact flat_lt (hl.box hG hn hd hr)
  refine ⟨?_, ?_, ?_⟩
  · have := (foldl_set (fun q => flat dims q.2) (fun q => (q.1 : ℝ) / Real.sqrt l.length) l _ hlt hinj 0).1
    rw [List.length_replicate] at this
    exact this
  · exact (foldl_set (fun q => flat dims q.2) (fun q => (q.1 : ℝ) / Real.sqrt l.length) l _ hlt hinj 0).2.1
  · intro x hx hno
    have := (foldl_set (fun q => flat dims q.2) (fun q => (q.1 : ℝ) / Real.sqrt l.length) l _ hlt hinj (flat dims x)).2.2 (by
      intro q hq he
      have := flat_inj (hl.box hG hn hd hq) hx he
      exact hno q.1 (by rw [← this]; exact hq))
    unfold vec
    rw [this]
    simp [List.getD_eq_getElem?_getD, List.getElem?_replicate]
    split <;> simp

/-- The value of the row vector at a tuple. -/
noncomputable def ent (dims : List ℕ) (v : List ℝ) (x : List ℕ) : ℝ := v.getD (flat dims x) 0

theorem ent_symm (hG : IsSGroup n G) (hn : dims.length = n) (hd : Compat G dims) {l : List SPerm} (hl : IsRow G dims l) {q : SPerm} (hq : q ∈ G) {x : List ℕ} (hx : x ∈ fullBase dims) :
    ent dims (vec dims l) x = q.1 * ent dims (vec dims l) (permute x q.2) := by
  obtain ⟨_, h2, h3⟩ := vec_spec hG hn hd hl
  have hs := hG.sign q hq
  by_cases h : ∃ s, ((s, x) : SPerm) ∈ l
  · obtain ⟨s, h⟩ := h
    have e1 := h2 _ h
    have e2 := h2 _ (hl.act hG h hq)
    simp only at e1 e2
    unfold ent
    rw [e1, e2]
    have : (q.1 : ℝ) * q.1 = 1 := by exact_mod_cast sq_sign hs
    push_cast
    linear_combination (-(s : ℝ) / Real.sqrt l.length) * this
  · push Not at h
    unfold ent
    rw [h3 x hx h, h3 _ (permute_mem hG hn hd hx hq)]
    · simp
    · intro s hs'
      have := hl.act hG hs' (hG.inv q hq)
      simp only at this
      rw [permute_comp (hG.perm q hq) (inv_perm (hG.perm q hq)), comp_inv (hG.perm q hq), permute_id (len_of_mem hn hx)] at this
      exact h _ this

theorem sum_fullBase (f : List ℕ → ℝ) : ((fullBase dims).map f).sum = ∑ x ∈ (fullBase dims).toFinset, f x := by
  rw [List.sum_toFinset _ (fullBase_nodup dims)]

theorem ent_self (hG : IsSGroup n G) (hn : dims.length = n) (hd : Compat G dims) {l : List SPerm} (hl : IsRow G dims l) : dotRows (vec dims l) (vec dims l) = 1 := by
  obtain ⟨h1, h2, h3⟩ := vec_spec hG hn hd hl
  rw [dotRows_eq h1 h1, sum_fullBase]
  have hnd : (l.map Prod.snd).Nodup := by
    refine hl.nodup.map_on fun a ha b hb hab => ?_
    have := hl.func hG hn (s := a.1) (t := b.1) (e := a.2) ha (by rw [hab]; exact hb)
    exact Prod.ext this hab
  have hsub : (l.map Prod.snd).toFinset ⊆ (fullBase dims).toFinset := by
    intro x hx
    rw [List.mem_toFinset, List.mem_map] at hx
    obtain ⟨r, hr, rfl⟩ := hx
    rw [List.mem_toFinset]; exact hl.box hG hn hd hr
  rw [← Finset.sum_subset hsub]
  · rw [List.sum_toFinset _ hnd, List.map_map]
    have hlen : (0 : ℝ) < l.length := by
      exact_mod_cast List.length_pos_iff.mpr (hl.ne_nil hG hn)
    have : l.map ((fun x => (vec dims l).getD (flat dims x) 0 * (vec dims l).getD (flat dims x) 0) ∘ Prod.snd) = l.map fun _ => 1 / (l.length : ℝ) := by
      refine List.map_congr_left fun r hr => ?_
      simp only [Function.comp_apply]
      rw [h2 r hr]
      have hs : (r.1 : ℝ) * r.1 = 1 := by exact_mod_cast sq_sign (hl.sign hG hr)
      rw [div_mul_div_comm, hs, Real.mul_self_sqrt hlen.le]
    rw [this]
    simp [hlen.ne']
  · intro x hx hno
    rw [List.mem_toFinset] at hx hno
    rw [h3 x hx (fun s hs => hno (List.mem_map.mpr ⟨_, hs, rfl⟩))]
    simp

/-- Two rows that share a tuple come from the same pair of orbits. -/
theorem shared (hG : IsSGroup n G) (hn : dims.length = n) {l l' : List SPerm} {x x' : List ℕ} (hx : x ∈ fullBase dims) (hx' : x' ∈ fullBase dims)
    {u u' : ℤ} (hm : ∀ r : SPerm, r ∈ l ↔ (u * r.1, r.2) ∈ orbit G x) (hm' : ∀ r : SPerm, r ∈ l' ↔ (u' * r.1, r.2) ∈ orbit G x') {s t : ℤ} {e : List ℕ} (h : (s, e) ∈ l) (h' : (t, e) ∈ l') :
    ({orbit G x, negOrbit (orbit G x)} : Finset (Finset SPerm)) = {orbit G x', negOrbit (orbit G x')} := by
  rw [← pair_member hG (len_of_mem hn hx) ((hm _).mp h), ← pair_member hG (len_of_mem hn hx') ((hm' _).mp h')]

theorem ent_cross (hG : IsSGroup n G) (hn : dims.length = n) (hd : Compat G dims) {l l' : List SPerm} (hl : IsRow G dims l) (hl' : IsRow G dims l') (hdis : ∀ s t e, ((s, e) : SPerm) ∈ l → ((t, e) : SPerm) ∉ l') :
    dotRows (vec dims l) (vec dims l') = 0 := by
  obtain ⟨h1, h2, h3⟩ := vec_spec hG hn hd hl
  obtain ⟨h1', h2', h3'⟩ := vec_spec hG hn hd hl'
  rw [dotRows_eq h1 h1', sum_fullBase]
  refine Finset.sum_eq_zero fun x hx => ?_
  rw [List.mem_toFinset] at hx
  by_cases h : ∃ s, ((s, x) : SPerm) ∈ l
  · obtain ⟨s, h⟩ := h
    rw [h3' x hx (fun t => hdis s t x h), mul_zero]
  · push Not at h
    rw [h3 x hx h, zero_mul]

end E3nn.PermRepr

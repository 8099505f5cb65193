import Verif.Model.ReducedOpt
import Verif.Lemmas.RTPBasis

/-! # The combinatorics of the optimized symmetric powers -/

namespace E3nn.RTP

open E3nn.PermRepr

/-- The sequence `c` read in the order `a`. -/
def pat (c a : List ℕ) : List ℕ := a.map fun i => c.getD i 0

theorem mem_lexPerms : ∀ (n : ℕ) (l a : List ℕ), l.length = n → (a ∈ lexPerms n l ↔ a.Perm l)
  | 0, l, a, h => by
    rw [List.length_eq_zero_iff] at h
    subst h
    simp [lexPerms]
  | n + 1, l, a, h => by
    simp only [lexPerms, List.mem_flatMap, List.mem_map]
    constructor
    · rintro ⟨x, hx, b, hb, rfl⟩
      rw [mem_lexPerms n (l.erase x) b (by rw [List.length_erase_of_mem hx]; omega)] at hb
      exact (hb.cons x).trans (List.perm_cons_erase hx).symm
    · intro hp
      cases a with
      | nil => have := hp.length_eq; simp at this; omega
      | cons x b =>
        have hx : x ∈ l := hp.mem_iff.mp (by simp)
        refine ⟨x, hx, b, ?_, rfl⟩
        rw [mem_lexPerms n (l.erase x) b (by rw [List.length_erase_of_mem hx]; omega)]
        exact (List.cons_perm_iff_perm_erase.mp hp).2

theorem newPerms_fold (c : List ℕ) : ∀ (L acc : List (List ℕ)), acc.Pairwise (fun a b => pat c a ≠ pat c b) →
    let r := L.foldl (fun acc a => if acc.any fun b => b.map (fun i => c.getD i 0) == a.map (fun i => c.getD i 0) then acc else acc ++ [a]) acc
    r.Pairwise (fun a b => pat c a ≠ pat c b) ∧ (∀ a ∈ r, a ∈ acc ∨ a ∈ L) ∧ (∀ a ∈ acc, a ∈ r) ∧ ∀ a ∈ L, ∃ b ∈ r, pat c b = pat c a
  | [], acc, h => ⟨h, fun a ha => Or.inl ha, fun a ha => ha, by simp⟩
  | x :: L, acc, h => by
    simp only [List.foldl_cons]
    by_cases hx : (acc.any fun b => b.map (fun i => c.getD i 0) == x.map (fun i => c.getD i 0)) = true
    · rw [if_pos hx]
      obtain ⟨r1, r2, r3, r4⟩ := newPerms_fold c L acc h
      refine ⟨r1, fun a ha => ?_, r3, fun a ha => ?_⟩
      · rcases r2 a ha with h | h
        · exact Or.inl h
        · exact Or.inr (by simp [h])
      · rcases List.mem_cons.mp ha with rfl | ha
        · obtain ⟨b, hb, hb2⟩ := List.any_eq_true.mp hx
          exact ⟨b, r3 b hb, by simpa [pat] using hb2⟩
        · exact r4 a ha
    · rw [if_neg hx]
      have hx' : ∀ b ∈ acc, pat c b ≠ pat c x := by
        intro b hb e
        exact hx (List.any_eq_true.mpr ⟨b, hb, by simpa [pat] using e⟩)
      obtain ⟨r1, r2, r3, r4⟩ := newPerms_fold c L (acc ++ [x]) (by
        rw [List.pairwise_append]
        exact ⟨h, List.pairwise_singleton _ _, fun a ha b hb => by rw [List.mem_singleton.mp hb]; exact hx' a ha⟩)
      refine ⟨r1, fun a ha => ?_, fun a ha => r3 a (by simp [ha]), fun a ha => ?_⟩
      · rcases r2 a ha with h | h
        · rcases List.mem_append.mp h with h | h
          · exact Or.inl h
          · exact Or.inr (by rw [List.mem_singleton.mp h]; simp)
        · exact Or.inr (by simp [h])
      · rcases List.mem_cons.mp ha with rfl | ha
        · exact ⟨a, r3 a (by simp), rfl⟩
        · exact r4 a ha

theorem newPerms_pairwise (c : List ℕ) : (newPerms c).Pairwise fun a b => pat c a ≠ pat c b :=
  (newPerms_fold c (lexPerms c.length (List.range c.length)) [] List.Pairwise.nil).1

theorem newPerms_perm {c a : List ℕ} (h : a ∈ newPerms c) : a.Perm (List.range c.length) := by
  rcases (newPerms_fold c (lexPerms c.length (List.range c.length)) [] List.Pairwise.nil).2.1 a h with h | h
  · simp at h
  · exact (mem_lexPerms _ _ _ (by simp)).mp h

theorem newPerms_exists {c a : List ℕ} (h : a.Perm (List.range c.length)) : ∃ b ∈ newPerms c, pat c b = pat c a :=
  (newPerms_fold c (lexPerms c.length (List.range c.length)) [] List.Pairwise.nil).2.2.2 a ((mem_lexPerms _ _ _ (by simp)).mpr h)

theorem newPerms_length (c : List ℕ) : ((newPerms c).length : ℝ) ≠ 0 := by
  obtain ⟨b, hb, -⟩ := newPerms_exists (c := c) (List.Perm.refl _)
  have := List.length_pos_of_mem hb
  positivity

theorem perm_map_exists {α β : Type} [DecidableEq α] (f : α → β) : ∀ (w : List β) (l : List α), (l.map f).Perm w → ∃ a : List α, a.Perm l ∧ a.map f = w
  | [], l, h => ⟨[], by have := h.eq_nil; rw [List.map_eq_nil_iff] at this; subst this; exact ⟨List.Perm.nil, rfl⟩⟩
  | y :: w, l, h => by
    obtain ⟨x, hx, rfl⟩ := List.mem_map.mp (h.mem_iff.mpr (List.mem_cons_self (a := y)))
    have hp := List.perm_cons_erase hx
    obtain ⟨a, a1, a2⟩ := perm_map_exists f w (l.erase x) (List.Perm.cons_inv (((hp.map f).symm.trans h)))
    exact ⟨x :: a, (a1.cons x).trans hp.symm, by rw [List.map_cons, a2]⟩

theorem pat_range (c : List ℕ) : pat c (List.range c.length) = c := by
  apply List.ext_getElem (by simp [pat])
  intro i h1 h2
  simp only [pat, List.getElem_map, List.getElem_range]
  rw [List.getD_eq_getElem _ _ h2]

theorem pat_perm {c a : List ℕ} (h : a.Perm (List.range c.length)) : (pat c a).Perm c := by
  have := h.map fun i => c.getD i 0
  exact this.trans (by have := pat_range c; unfold pat at this; rw [this])

theorem exists_pat {c w : List ℕ} (h : c.Perm w) : ∃ a, a.Perm (List.range c.length) ∧ pat c a = w :=
  perm_map_exists (fun i => c.getD i 0) w (List.range c.length) (by have := pat_range c; unfold pat at this; rw [this]; exact h)

/-! ### tuples -/

theorem mem_tuples : ∀ (n s : ℕ) (p : List ℕ), 0 < n → (p ∈ tuplesWithSum n s ↔ p.length = n ∧ p.sum = s)
  | 0, _, _, h => by omega
  | 1, s, p, _ => by
    simp only [tuplesWithSum, List.mem_singleton]
    constructor
    · rintro rfl; simp
    · rintro ⟨h1, h2⟩
      obtain ⟨x, rfl⟩ := List.length_eq_one_iff.mp h1
      simpa using h2
  | n + 2, 0, p, _ => by
    simp only [tuplesWithSum, List.mem_singleton]
    constructor
    · rintro rfl; simp
    · rintro ⟨h1, h2⟩
      rw [List.eq_replicate_iff]
      refine ⟨h1, fun x hx => ?_⟩
      have := List.single_le_sum (l := p) (fun _ _ => Nat.zero_le _) x hx
      omega
  | n + 2, s + 1, p, _ => by
    simp only [tuplesWithSum, List.mem_flatMap, List.mem_map, List.mem_reverse, List.mem_range]
    constructor
    · rintro ⟨x, hx, q, hq, rfl⟩
      rw [mem_tuples (n + 1) _ q (by omega)] at hq
      simp only [List.length_cons, List.sum_cons]
      omega
    · rintro ⟨h1, h2⟩
      cases p with
      | nil => simp at h1
      | cons x q =>
        simp only [List.length_cons, List.sum_cons] at h1 h2
        exact ⟨x, by omega, q, (mem_tuples (n + 1) _ q (by omega)).mpr ⟨by omega, by omega⟩, rfl⟩

theorem tuples_nodup : ∀ (n s : ℕ), (tuplesWithSum n s).Nodup
  | 0, _ => by simp [tuplesWithSum]
  | 1, s => by simp [tuplesWithSum]
  | n + 2, 0 => by simp [tuplesWithSum]
  | n + 2, s + 1 => by
    unfold tuplesWithSum
    rw [List.nodup_flatMap]
    refine ⟨fun x _ => (tuples_nodup (n + 1) _).map (List.cons_injective), ?_⟩
    have : (List.range (s + 2)).reverse.Nodup := List.nodup_reverse.mpr List.nodup_range
    refine this.imp ?_
    intro x y hxy
    intro p hp hq
    obtain ⟨a, -, rfl⟩ := List.mem_map.mp hp
    obtain ⟨b, -, hb⟩ := List.mem_map.mp hq
    exact hxy (List.cons.inj hb).1.symm

/-! ### the repeated indices -/

/-- The repeated indices from the index `i` on. -/
def reps : ℕ → List ℕ → List ℕ
  | _, [] => []
  | i, p :: ps => List.replicate p i ++ reps (i + 1) ps

theorem repeatIndices_eq (ps : List ℕ) : repeatIndices (nonZero ps) = reps 0 ps := by
  unfold repeatIndices nonZero
  suffices h : ∀ i, ((((ps.zipIdx i).filter fun q => q.1 != 0).map fun q => (q.2, q.1)).flatMap fun q => List.replicate q.2 q.1) = reps i ps from h 0
  intro i
  induction ps generalizing i with
  | nil => rfl
  | cons p ps ih =>
    rw [List.zipIdx_cons, List.filter_cons]
    by_cases hp : p = 0
    · subst hp
      simp only [bne_self_eq_false, Bool.false_eq_true, if_false]
      rw [ih]; simp [reps]
    · rw [if_pos (by simpa using hp), List.map_cons, List.flatMap_cons, ih]; rfl

theorem reps_length (i : ℕ) (ps : List ℕ) : (reps i ps).length = ps.sum := by
  induction ps generalizing i with
  | nil => rfl
  | cons p ps ih => simp [reps, ih]

theorem reps_ge {i : ℕ} {ps : List ℕ} {k : ℕ} (h : k ∈ reps i ps) : i ≤ k ∧ k < i + ps.length := by
  induction ps generalizing i with
  | nil => simp [reps] at h
  | cons p ps ih =>
    simp only [reps, List.mem_append] at h
    rcases h with h | h
    · have := List.eq_of_mem_replicate h
      subst this
      simp
    · have := ih h
      simp only [List.length_cons]
      omega

theorem reps_count (i : ℕ) (ps : List ℕ) (k : ℕ) : (reps i ps).count (i + k) = ps.getD k 0 := by
  induction ps generalizing i k with
  | nil => simp [reps]
  | cons p ps ih =>
    rw [reps, List.count_append, List.count_replicate]
    cases k with
    | zero =>
      have : (reps (i + 1) ps).count (i + 0) = 0 := by
        rw [List.count_eq_zero]; intro h; have := reps_ge h; omega
      rw [this]; simp
    | succ k =>
      have := ih (i + 1) k
      rw [show i + 1 + k = i + (k + 1) by ring] at this
      rw [this]
      simp

/-- The powers of a sequence of indices. -/
def powersOf (n : ℕ) (w : List ℕ) : List ℕ := (List.range n).map fun k => w.count k

theorem reps_perm {n : ℕ} {w : List ℕ} (h : ∀ k ∈ w, k < n) : (reps 0 (powersOf n w)).Perm w := by
  rw [List.perm_iff_count]
  intro k
  have h1 := reps_count 0 (powersOf n w) k
  rw [Nat.zero_add] at h1
  rw [h1]
  by_cases hk : k < n
  · unfold powersOf
    rw [List.getD_eq_getElem _ _ (by simpa using hk)]
    simp
  · rw [List.getD_eq_default _ _ (by simp [powersOf]; omega)]
    symm
    rw [List.count_eq_zero]
    intro hm; exact hk (h k hm)

theorem reps_inj {ps qs : List ℕ} (hl : ps.length = qs.length) (h : (reps 0 ps).Perm (reps 0 qs)) : ps = qs := by
  apply List.ext_getElem hl
  intro k h1 h2
  have e1 := reps_count 0 ps k
  have e2 := reps_count 0 qs k
  rw [List.getD_eq_getElem _ _ h1] at e1
  rw [List.getD_eq_getElem _ _ h2] at e2
  rw [← e1, ← e2]
  exact h.count_eq _

theorem powersOf_mem {n d : ℕ} (hn : 0 < n) {w : List ℕ} (h : ∀ k ∈ w, k < n) (hw : w.length = d) : powersOf n w ∈ tuplesWithSum n d := by
  rw [mem_tuples _ _ _ hn]
  refine ⟨by simp [powersOf], ?_⟩
  have := (reps_perm h).length_eq
  rw [reps_length, hw] at this
  exact this

end E3nn.RTP

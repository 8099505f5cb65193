import Verif.Lemmas.RTPOptAxes
import Verif.Lemmas.RTPPlace

/-! # The sum over the arrangements of the irreps -/

namespace E3nn.RTP

open Finset E3nn.PermRepr E3nn.Wig E3nn.Perm

/-- The irreps of the axes of the small array. -/
def irrc (S : Irreps) (c : List ℕ) : List Irreps := c.map fun k => [S.getD k ⟨0, ⟨0, .e⟩⟩]

/-- The permutations of the axes that do not change the irreps. -/
def groupC (c : List ℕ) : Finset SPerm := (symmetricPermRepr c.length).filter fun q => ∀ i < c.length, c.getD (q.2.getD i 0) 0 = c.getD i 0

theorem mem_groupC {c : List ℕ} {q : SPerm} : q ∈ groupC c ↔ (q.1 = 1 ∧ q.2.Perm (List.range c.length)) ∧ ∀ i < c.length, c.getD (q.2.getD i 0) 0 = c.getD i 0 := by
  unfold groupC
  rw [Finset.mem_filter, mem_symmetricPermRepr]

theorem groupC_group (c : List ℕ) : IsSGroup c.length (groupC c) := by
  refine ⟨fun q hq => Or.inl (mem_groupC.mp hq).1.1, fun q hq => (mem_groupC.mp hq).1.2, ?_, ?_, ?_⟩
  · refine mem_groupC.mpr ⟨⟨rfl, id_perm _⟩, fun i hi => ?_⟩
    simp only
    rw [id_getD hi]
  · intro q hq
    obtain ⟨⟨h1, h2⟩, h3⟩ := mem_groupC.mp hq
    refine mem_groupC.mpr ⟨⟨h1, inv_perm h2⟩, fun i hi => ?_⟩
    simp only
    rw [inv_getD h2 hi, ← h3 _ (idxOf_lt h2 hi), getD_idxOf h2 hi]
  · intro q hq r hr
    obtain ⟨⟨h1, h2⟩, h3⟩ := mem_groupC.mp hq
    obtain ⟨⟨k1, k2⟩, k3⟩ := mem_groupC.mp hr
    refine mem_groupC.mpr ⟨⟨by simp [h1, k1], comp_perm h2 k2⟩, fun i hi => ?_⟩
    simp only
    rw [comp_getD h2 hi, h3 _ (getD_lt k2 hi), k3 i hi]

theorem irrc_length (S : Irreps) (c : List ℕ) : (irrc S c).length = c.length := by simp [irrc]

theorem irrc_getD (S : Irreps) {c : List ℕ} {k : ℕ} (hk : k < c.length) : (irrc S c).getD k [] = [S.getD (c.getD k 0) ⟨0, ⟨0, .e⟩⟩] := by
  unfold irrc
  rw [List.getD_eq_getElem _ _ (by simpa using hk), List.getElem_map, List.getD_eq_getElem c _ hk]

theorem groupC_same (S : Irreps) (c : List ℕ) : SameIrreps (irrc S c) (groupC c) := by
  intro q hq i hi
  rw [irrc_length] at hi
  obtain ⟨⟨h1, h2⟩, h3⟩ := mem_groupC.mp hq
  rw [irrc_getD S hi, irrc_getD S (getD_lt h2 hi), h3 i hi]

theorem axisDim_irrc {S : Irreps} {c : List ℕ} {k : ℕ} (hk : k < c.length) (h : c.getD k 0 < S.length) :
    axisDim (irrc S c) k = startOf S (c.getD k 0 + 1) - startOf S (c.getD k 0) := by
  unfold axisDim
  rw [irrc_getD S hk, startOf_succ h, List.getD_eq_getElem S _ h]
  omega

/-- The indices are in the slices of the arrangement `a`. -/
def Fits (S : Irreps) (c a : List ℕ) (σ : ℕ → ℕ) : Prop := ∀ m < c.length, InB S (c.getD (a.getD m 0) 0) (σ m)

theorem embed_pos {S : Irreps} {c a : List ℕ} (ha : a.Perm (List.range c.length)) (t : Ten) {σ : ℕ → ℕ} (h : Fits S c a σ) : embed S c a t σ = t (small S c a σ) := by
  rw [embed_eq, len_of ha, emb_pos fun m hm => h m (List.mem_range.mp hm)]

theorem embed_neg {S : Irreps} {c a : List ℕ} (ha : a.Perm (List.range c.length)) (t : Ten) {σ : ℕ → ℕ} (h : ¬ Fits S c a σ) : embed S c a t σ = 0 := by
  rw [embed_eq, len_of ha, emb_neg fun h' => h fun m hm => h' m (List.mem_range.mpr hm)]

theorem pat_iff {c c' a b : List ℕ} (ha : a.Perm (List.range c.length)) (hb : b.Perm (List.range c'.length)) (hl : c.length = c'.length) :
    pat c a = pat c' b ↔ ∀ m < c.length, c.getD (a.getD m 0) 0 = c'.getD (b.getD m 0) 0 := by
  have la := len_of ha
  have lb := len_of hb
  constructor
  · intro h m hm
    have e := congrArg (fun l => l.getD m 0) h
    simp only [pat] at e
    rw [List.getD_eq_getElem _ _ (by simpa [la] using hm), List.getD_eq_getElem _ _ (by rw [List.length_map, lb]; omega), List.getElem_map, List.getElem_map] at e
    rw [List.getD_eq_getElem a _ (by omega), List.getD_eq_getElem b _ (by omega)]
    exact e
  · intro h
    apply List.ext_getElem (by simp [pat, la, lb, hl])
    intro m h1 h2
    simp only [pat, List.length_map] at h1 h2
    simp only [pat, List.getElem_map]
    have := h m (by omega)
    rwa [List.getD_eq_getElem a _ (by omega), List.getD_eq_getElem b _ (by omega)] at this

theorem Fits.pat_eq {S : Irreps} {c c' a b : List ℕ} (ha : a.Perm (List.range c.length)) (hb : b.Perm (List.range c'.length)) (hl : c.length = c'.length) {σ : ℕ → ℕ}
    (h : Fits S c a σ) (h' : Fits S c' b σ) : pat c a = pat c' b :=
  (pat_iff ha hb hl).mpr fun m hm => (h m hm).unique (h' m (by omega))

theorem Fits.of_pat {S : Irreps} {c a b : List ℕ} (ha : a.Perm (List.range c.length)) (hb : b.Perm (List.range c.length)) {σ : ℕ → ℕ} (h : Fits S c a σ) (e : pat c b = pat c a) :
    Fits S c b σ := by
  intro m hm
  rw [(pat_iff hb ha rfl).mp e m hm]
  exact h m hm

theorem small_inR {S : Irreps} {c a : List ℕ} (ha : a.Perm (List.range c.length)) (hc : ∀ k < c.length, c.getD k 0 < S.length) {σ : ℕ → ℕ} (h : Fits S c a σ) :
    InR (irrc S c) (small S c a σ) := by
  intro k hk
  rw [irrc_length] at hk
  rw [axisDim_irrc hk (hc k hk)]
  have := h _ (idxOf_lt ha hk)
  rw [getD_idxOf ha hk] at this
  unfold InB at this
  unfold small
  omega

/-- Two arrangements of the same irreps give the same value. -/
theorem small_pat {S : Irreps} {c a b : List ℕ} (ha : a.Perm (List.range c.length)) (hb : b.Perm (List.range c.length)) (hc : ∀ k < c.length, c.getD k 0 < S.length)
    {σ : ℕ → ℕ} (h : Fits S c a σ) (e : pat c b = pat c a) {t : Ten} (ht : On (List.range c.length) t) (hs : Symm (irrc S c) (groupC c) t) :
    t (small S c b σ) = t (small S c a σ) := by
  have hq : ((1, Perm.comp a (Perm.inv b)) : SPerm) ∈ groupC c := by
    refine mem_groupC.mpr ⟨⟨rfl, comp_perm ha (inv_perm hb)⟩, fun i hi => ?_⟩
    simp only
    rw [comp_getD ha hi, inv_getD hb hi, ← (pat_iff hb ha rfl).mp e _ (idxOf_lt hb hi), getD_idxOf hb hi]
  have := hs _ hq _ (small_inR ha hc h)
  simp only [Int.cast_one, one_mul] at this
  rw [← this]
  apply ht
  intro k hk
  rw [List.mem_range] at hk
  have hp := (mem_groupC.mp hq).1.2
  have h3 := (mem_groupC.mp hq).2 k hk
  simp only at h3 hp
  rw [hat_lt hp hk]
  simp only
  unfold small
  rw [h3, comp_getD ha hk, inv_getD hb hk, idxOf_getD ha (idxOf_lt hb hk)]

theorem sum_pairwise_single {α : Type} (L : List α) (R : α → α → Prop) (F : α → ℝ) (hL : L.Pairwise R) {b : α} (hb : b ∈ L) (hF : ∀ a ∈ L, (R a b ∨ R b a) → F a = 0) :
    (L.map F).sum = F b := by
  induction L with
  | nil => simp at hb
  | cons x L ih =>
    rw [List.pairwise_cons] at hL
    rw [List.map_cons, List.sum_cons]
    rcases List.mem_cons.mp hb with rfl | hb'
    · rw [List.sum_eq_zero, add_zero]
      intro y hy
      obtain ⟨a, ha, rfl⟩ := List.mem_map.mp hy
      exact hF a (by simp [ha]) (Or.inr (hL.1 a ha))
    · rw [ih hL.2 hb' fun a ha => hF a (by simp [ha]), hF x (by simp) (Or.inl (hL.1 b hb')), zero_add]

theorem symmetrize_apply (S : Irreps) (c : List ℕ) (t : Ten) (σ : ℕ → ℕ) :
    symmetrize S c t σ = (Real.sqrt (newPerms c).length)⁻¹ * ((newPerms c).map fun a => embed S c a t σ).sum := by
  unfold symmetrize
  rw [Pi.smul_apply, smul_eq_mul]
  congr 1
  induction newPerms c with
  | nil => rfl
  | cons a L ih => rw [List.map_cons, List.sum_cons, List.map_cons, List.sum_cons, Pi.add_apply, ih]

theorem symmetrize_pos {S : Irreps} {c a : List ℕ} (ha : a.Perm (List.range c.length)) (hc : ∀ k < c.length, c.getD k 0 < S.length)
    {σ : ℕ → ℕ} (h : Fits S c a σ) {t : Ten} (ht : On (List.range c.length) t) (hs : Symm (irrc S c) (groupC c) t) :
    symmetrize S c t σ = (Real.sqrt (newPerms c).length)⁻¹ * t (small S c a σ) := by
  rw [symmetrize_apply]
  congr 1
  obtain ⟨b, hb, e⟩ := newPerms_exists ha
  have hbp := newPerms_perm hb
  have hbF := h.of_pat ha hbp e
  rw [sum_pairwise_single _ (fun a b => pat c a ≠ pat c b) (fun a => embed S c a t σ) (newPerms_pairwise c) hb, embed_pos hbp t hbF, small_pat ha hbp hc h e ht hs]
  intro a' ha' hne
  refine embed_neg (newPerms_perm ha') t fun hF => ?_
  have := hF.pat_eq (newPerms_perm ha') hbp rfl hbF
  rcases hne with h | h
  · exact h this
  · exact h this.symm

theorem symmetrize_neg {S : Irreps} {c : List ℕ} {σ : ℕ → ℕ} (h : ∀ a, a.Perm (List.range c.length) → ¬ Fits S c a σ) (t : Ten) : symmetrize S c t σ = 0 := by
  rw [symmetrize_apply, List.sum_eq_zero, mul_zero]
  intro y hy
  obtain ⟨a, ha, rfl⟩ := List.mem_map.mp hy
  exact embed_neg (newPerms_perm ha) t (h a (newPerms_perm ha))

theorem embed_on {S : Irreps} {c a : List ℕ} (ha : a.Perm (List.range c.length)) {t : Ten} (ht : On (List.range c.length) t) : On (List.range c.length) (embed S c a t) := by
  intro σ τ h
  have hF : Fits S c a σ ↔ Fits S c a τ := by
    constructor <;> intro hf m hm
    · rw [← h m (List.mem_range.mpr hm)]; exact hf m hm
    · rw [h m (List.mem_range.mpr hm)]; exact hf m hm
  by_cases hf : Fits S c a σ
  · rw [embed_pos ha t hf, embed_pos ha t (hF.mp hf)]
    apply ht
    intro k hk
    unfold small
    rw [h _ (List.mem_range.mpr (idxOf_lt ha (List.mem_range.mp hk)))]
  · rw [embed_neg ha t hf, embed_neg ha t fun h => hf (hF.mpr h)]

theorem On.list_sum {f : List ℕ} {L : List Ten} (h : ∀ t ∈ L, On f t) : On f L.sum := by
  induction L with
  | nil => intro σ τ _; rfl
  | cons t L ih =>
    intro σ τ hh
    rw [List.sum_cons, Pi.add_apply, Pi.add_apply, h t (by simp) σ τ hh, ih (fun t ht => h t (by simp [ht])) σ τ hh]

theorem symmetrize_on {S : Irreps} {c : List ℕ} {t : Ten} (ht : On (List.range c.length) t) : On (List.range c.length) (symmetrize S c t) := by
  unfold symmetrize
  refine On.smul _ (On.list_sum fun u hu => ?_)
  obtain ⟨a, ha, rfl⟩ := List.mem_map.mp hu
  exact embed_on (newPerms_perm ha) ht

theorem axSum_list_sum (d : ℕ → ℕ) (f : List ℕ) (L : List Ten) : axSum d f L.sum = (L.map (axSum d f)).sum := by
  induction L with
  | nil => exact axSum_zero d f
  | cons t L ih => rw [List.sum_cons, axSum_add, ih, List.map_cons, List.sum_cons]

theorem sqrt_ne (c : List ℕ) : Real.sqrt (newPerms c).length ≠ 0 := by
  rw [Real.sqrt_ne_zero (by positivity)]
  exact newPerms_length c

theorem inv_mul_len (c : List ℕ) : (Real.sqrt (newPerms c).length)⁻¹ * (newPerms c).length = Real.sqrt (newPerms c).length := by
  have h := sqrt_ne c
  field_simp
  rw [Real.sq_sqrt (by positivity)]

/-- The sum of all entries. -/
theorem axSum_symmetrize {S : Irreps} {c : List ℕ} (hc : ∀ k < c.length, c.getD k 0 < S.length) {D : ℕ → ℕ} (hD : ∀ m < c.length, D m = S.dim) {u : Ten}
    (hu : On (List.range c.length) u) (σ τ : ℕ → ℕ) :
    axSum D (List.range c.length) (symmetrize S c u) σ = Real.sqrt (newPerms c).length * axSum (axisDim (irrc S c)) (List.range c.length) u τ := by
  unfold symmetrize
  rw [axSum_smul, axSum_list_sum, List.map_map, Pi.smul_apply, smul_eq_mul]
  have : ∀ L : List (List ℕ), (∀ a ∈ L, a.Perm (List.range c.length)) → (L.map (axSum D (List.range c.length) ∘ fun a => embed S c a u)).sum σ =
      L.length * axSum (axisDim (irrc S c)) (List.range c.length) u τ := by
    intro L hL
    induction L with
    | nil => simp
    | cons a L ih =>
      rw [List.map_cons, List.sum_cons, Pi.add_apply, ih fun a ha => hL a (by simp [ha]), Function.comp,
        axSum_embed (hL a (by simp)) hD (fun k hk => axisDim_irrc hk (hc k hk)) hu σ τ]
      push_cast [List.length_cons]
      ring
  rw [this _ fun a ha => newPerms_perm ha, ← mul_assoc, inv_mul_len]

theorem Symm.mul {irr : List Irreps} {G : Finset SPerm} (h1 : ∀ q ∈ G, q.1 = 1) {s t : Ten} (hs : Symm irr G s) (ht : Symm irr G t) : Symm irr G (s * t) := by
  intro q hq σ hσ
  rw [pact_mul, Pi.mul_apply, hs q hq σ hσ, ht q hq σ hσ, h1 q hq]
  simp

theorem symmetrize_mul {S : Irreps} {c : List ℕ} (hc : ∀ k < c.length, c.getD k 0 < S.length) {s t : Ten} (hs : On (List.range c.length) s) (ht : On (List.range c.length) t)
    (ss : Symm (irrc S c) (groupC c) s) (st : Symm (irrc S c) (groupC c) t) : symmetrize S c s * symmetrize S c t = (Real.sqrt (newPerms c).length)⁻¹ • symmetrize S c (s * t) := by
  funext σ
  rw [Pi.mul_apply, Pi.smul_apply, smul_eq_mul]
  by_cases h : ∃ a, a.Perm (List.range c.length) ∧ Fits S c a σ
  · obtain ⟨a, ha, hF⟩ := h
    rw [symmetrize_pos ha hc hF hs ss, symmetrize_pos ha hc hF ht st,
      symmetrize_pos ha hc hF (hs.mul ht) (ss.mul (fun q hq => (mem_groupC.mp hq).1.1) st), Pi.mul_apply]
    ring
  · push Not at h
    rw [symmetrize_neg h s, symmetrize_neg h (s * t)]
    simp

/-- Scalar products are preserved. -/
theorem inner_symmetrize {S : Irreps} {c : List ℕ} (hc : ∀ k < c.length, c.getD k 0 < S.length) {D : ℕ → ℕ} (hD : ∀ m < c.length, D m = S.dim) {s t : Ten}
    (hs : On (List.range c.length) s) (ht : On (List.range c.length) t) (ss : Symm (irrc S c) (groupC c) s) (st : Symm (irrc S c) (groupC c) t) (σ τ : ℕ → ℕ) :
    axSum D (List.range c.length) (symmetrize S c s * symmetrize S c t) σ = axSum (axisDim (irrc S c)) (List.range c.length) (s * t) τ := by
  rw [symmetrize_mul hc hs ht ss st, axSum_smul, Pi.smul_apply, smul_eq_mul, axSum_symmetrize hc hD (hs.mul ht) σ τ, ← mul_assoc, inv_mul_cancel₀ (sqrt_ne c), one_mul]

/-- Different irreps: the product is zero. -/
theorem symmetrize_disjoint {S : Irreps} {c c' : List ℕ} (hl : c.length = c'.length) (hn : ¬ c.Perm c') (s t : Ten) : symmetrize S c s * symmetrize S c' t = 0 := by
  funext σ
  rw [Pi.mul_apply, Pi.zero_apply]
  by_cases h : ∃ a, a.Perm (List.range c.length) ∧ Fits S c a σ
  · obtain ⟨a, ha, hF⟩ := h
    rw [symmetrize_neg (c := c'), mul_zero]
    intro b hb hF'
    have e := hF.pat_eq ha hb hl hF'
    exact hn ((pat_perm ha).symm.trans (e ▸ pat_perm hb))
  · push Not at h
    rw [symmetrize_neg h, zero_mul]

/-- The result is symmetric in all axes. -/
theorem symmetrize_symm {S : Irreps} {c : List ℕ} (hc : ∀ k < c.length, c.getD k 0 < S.length) {t : Ten} (ht : On (List.range c.length) t) (hs : Symm (irrc S c) (groupC c) t)
    {q : SPerm} (hq : q ∈ symmetricPermRepr c.length) (σ : ℕ → ℕ) : pact q (symmetrize S c t) σ = symmetrize S c t σ := by
  obtain ⟨-, hp⟩ := mem_symmetricPermRepr.mp hq
  have key : ∀ {q : List ℕ}, q.Perm (List.range c.length) → ∀ {a : List ℕ}, a.Perm (List.range c.length) → ∀ {σ : ℕ → ℕ}, Fits S c a σ → Fits S c (Perm.comp a q) fun i => σ (hat (1, q) i) := by
    intro q hp a ha σ hF m hm
    rw [comp_getD ha hm]
    simp only
    rw [hat_lt (q := (1, q)) hp hm]
    exact hF _ (getD_lt hp hm)
  have hh : hat q = hat (1, q.2) := rfl
  by_cases h : ∃ a, a.Perm (List.range c.length) ∧ Fits S c a σ
  · obtain ⟨a, ha, hF⟩ := h
    have hF' := key hp ha hF
    unfold pact
    rw [hh, symmetrize_pos (comp_perm ha hp) hc hF' ht hs, symmetrize_pos ha hc hF ht hs]
    congr 1
    apply ht
    intro k hk
    rw [List.mem_range] at hk
    unfold small
    simp only
    rw [hat_lt (q := (1, q.2)) hp (idxOf_lt (comp_perm ha hp) hk)]
    congr 2
    have h1 : (Perm.comp a q.2).getD (List.idxOf k (Perm.comp a q.2)) 0 = k := getD_idxOf (comp_perm ha hp) hk
    rw [comp_getD ha (idxOf_lt (comp_perm ha hp) hk)] at h1
    apply getD_inj ha (getD_lt hp (idxOf_lt (comp_perm ha hp) hk)) (idxOf_lt ha hk)
    rw [h1, getD_idxOf ha hk]
  · have h' : ∀ a, a.Perm (List.range c.length) → ¬ Fits S c a fun i => σ (hat q i) := by
      intro a ha hF
      apply h
      refine ⟨Perm.comp a (Perm.inv q.2), comp_perm ha (inv_perm hp), ?_⟩
      have := key (inv_perm hp) ha hF
      intro m hm
      have h2 := this m hm
      simp only [hh] at h2
      rw [hat_lt (q := (1, Perm.inv q.2)) (inv_perm hp) hm] at h2
      simp only at h2
      rw [inv_getD hp hm, hat_lt (q := (1, q.2)) hp (idxOf_lt hp hm)] at h2
      simp only at h2
      rwa [getD_idxOf hp hm] at h2
    push Not at h
    unfold pact
    rw [symmetrize_neg h, symmetrize_neg h']

/-- The part of a symmetric array in the slices of `c`. -/
def slice (S : Irreps) (c : List ℕ) (σ : ℕ → ℕ) (T : Ten) : Ten := fun τ => T fun m => if m < c.length then startOf S (c.getD m 0) + τ m else σ m

theorem slice_on (S : Irreps) (c : List ℕ) (σ : ℕ → ℕ) (T : Ten) : On (List.range c.length) (slice S c σ T) := by
  intro τ τ' h
  unfold slice
  congr 1
  funext m
  split
  · rename_i hm; rw [h m (List.mem_range.mpr hm)]
  · rfl

theorem slice_inR {irr : List Irreps} {S : Irreps} {c : List ℕ} (hirr : irr.length = c.length) (hD : ∀ m < c.length, axisDim irr m = S.dim) (hc : ∀ k < c.length, c.getD k 0 < S.length)
    {σ τ : ℕ → ℕ} (hτ : InR (irrc S c) τ) : InR irr fun m => if m < c.length then startOf S (c.getD m 0) + τ m else σ m := by
  intro i hi
  rw [hirr] at hi
  have h := hτ i (by rw [irrc_length]; exact hi)
  rw [axisDim_irrc hi (hc i hi)] at h
  have := startOf_le S (c.getD i 0 + 1)
  rw [hD i hi]
  simp only
  rw [if_pos hi]
  omega

theorem slice_symm {irr : List Irreps} {S : Irreps} {c : List ℕ} (hirr : irr.length = c.length) (hD : ∀ m < c.length, axisDim irr m = S.dim) (hc : ∀ k < c.length, c.getD k 0 < S.length)
    (σ : ℕ → ℕ) {T : Ten} (hT : Symm irr (symmetricPermRepr c.length) T) : Symm (irrc S c) (groupC c) (slice S c σ T) := by
  intro q hq τ hτ
  obtain ⟨⟨h1, h2⟩, h3⟩ := mem_groupC.mp hq
  have := hT q (mem_symmetricPermRepr.mpr ⟨h1, h2⟩) _ (slice_inR hirr hD hc (σ := σ) hτ)
  rw [show slice S c σ T τ = T (fun m => if m < c.length then startOf S (c.getD m 0) + τ m else σ m) from rfl, ← this]
  unfold pact slice
  congr 1
  funext m
  by_cases hm : m < c.length
  · simp only [if_pos hm, hat_lt h2 hm, if_pos (getD_lt h2 hm), h3 m hm]
  · simp only [if_neg hm, hat_ge h2 (show c.length ≤ m by omega)]

theorem axSum_embed_mul {irr : List Irreps} {S : Irreps} {c a : List ℕ} (ha : a.Perm (List.range c.length)) (hirr : irr.length = c.length) (hD : ∀ m < c.length, axisDim irr m = S.dim)
    (hc : ∀ k < c.length, c.getD k 0 < S.length) {t T : Ten} (ht : On (List.range c.length) t) (hT : Symm irr (symmetricPermRepr c.length) T) (σ τ : ℕ → ℕ) :
    axSum (axisDim irr) (List.range c.length) (embed S c a t * T) σ = axSum (axisDim (irrc S c)) (List.range c.length) (t * slice S c σ T) τ := by
  rw [← axSum_embed ha hD (fun k hk => axisDim_irrc hk (hc k hk)) (ht.mul (slice_on S c σ T)) σ τ]
  apply axSum_congr
  intro ρ hρ hσ
  rw [Pi.mul_apply]
  by_cases hF : Fits S c a ρ
  · rw [embed_pos ha _ hF, embed_pos ha _ hF, Pi.mul_apply]
    congr 1
    have hr : InR irr ρ := fun i hi => hρ i (List.mem_range.mpr (by omega))
    have := hT (1, Perm.inv a) (mem_symmetricPermRepr.mpr ⟨rfl, inv_perm ha⟩) ρ hr
    simp only [Int.cast_one, one_mul] at this
    rw [← this]
    unfold pact slice
    congr 1
    funext m
    by_cases hm : m < c.length
    · rw [if_pos hm, hat_lt (inv_perm ha) hm]
      simp only
      rw [inv_getD ha hm]
      unfold small
      have h2 := hF _ (idxOf_lt ha hm)
      rw [getD_idxOf ha hm] at h2
      have := h2.1
      omega
    · rw [if_neg hm, hat_ge (inv_perm ha) (by omega)]
      exact hσ m (by simpa using hm)
  · rw [embed_neg ha _ hF, embed_neg ha _ hF, zero_mul]

theorem axSum_symmetrize_mul {irr : List Irreps} {S : Irreps} {c : List ℕ} (hirr : irr.length = c.length) (hD : ∀ m < c.length, axisDim irr m = S.dim)
    (hc : ∀ k < c.length, c.getD k 0 < S.length) {t T : Ten} (ht : On (List.range c.length) t) (hT : Symm irr (symmetricPermRepr c.length) T) (σ τ : ℕ → ℕ) :
    axSum (axisDim irr) (List.range c.length) (symmetrize S c t * T) σ =
      Real.sqrt (newPerms c).length * axSum (axisDim (irrc S c)) (List.range c.length) (t * slice S c σ T) τ := by
  unfold symmetrize
  rw [smul_mul_assoc, axSum_smul, Pi.smul_apply, smul_eq_mul]
  have : ∀ L : List (List ℕ), (∀ a ∈ L, a.Perm (List.range c.length)) → axSum (axisDim irr) (List.range c.length) ((L.map fun a => embed S c a t).sum * T) σ =
      L.length * axSum (axisDim (irrc S c)) (List.range c.length) (t * slice S c σ T) τ := by
    intro L hL
    induction L with
    | nil => simp [axSum_zero]
    | cons a L ih =>
      rw [List.map_cons, List.sum_cons, add_mul, axSum_add, Pi.add_apply, ih fun a ha => hL a (by simp [ha]), axSum_embed_mul (hL a (by simp)) hirr hD hc ht hT σ τ]
      push_cast [List.length_cons]
      ring
  rw [this _ fun a ha => newPerms_perm ha, ← mul_assoc, inv_mul_len]

/-- The expansion in the arrays of one arrangement. -/
theorem expansion_symmetrize {irr : List Irreps} {S : Irreps} {c a : List ℕ} (ha : a.Perm (List.range c.length)) (hirr : irr.length = c.length)
    (hD : ∀ m < c.length, axisDim irr m = S.dim) (hc : ∀ k < c.length, c.getD k 0 < S.length) {L : List Ten} (hon : ∀ t ∈ L, On (List.range c.length) t)
    (hs : ∀ t ∈ L, Symm (irrc S c) (groupC c) t) (hO : OBasis (irrc S c) (groupC c) (List.range c.length) L) {T : Ten} (hT : Symm irr (symmetricPermRepr c.length) T) {σ : ℕ → ℕ}
    (hσ : InR irr σ) (hF : Fits S c a σ) : expansion (axisDim irr) (List.range c.length) (L.map (symmetrize S c)) T σ = T σ := by
  have hg : IsSGroup (irrc S c).length (groupC c) := by rw [irrc_length]; exact groupC_group c
  have h1 : SymOn (irrc S c) (groupC c) (List.range c.length) (slice S c σ T) := by
    have := (symOn_iff hg).mpr (slice_symm hirr hD hc σ hT)
    rwa [irrc_length] at this
  have h2 := hO.complete _ h1 _ (small_inR ha hc hF)
  have h3 : slice S c σ T (small S c a σ) = T σ := by
    have := hT (1, Perm.inv a) (mem_symmetricPermRepr.mpr ⟨rfl, inv_perm ha⟩) σ hσ
    simp only [Int.cast_one, one_mul] at this
    rw [← this]
    unfold pact slice
    congr 1
    funext m
    by_cases hm : m < c.length
    · rw [if_pos hm, hat_lt (inv_perm ha) hm]
      simp only
      rw [inv_getD ha hm]
      unfold small
      have h2 := hF _ (idxOf_lt ha hm)
      rw [getD_idxOf ha hm] at h2
      have := h2.1
      omega
    · rw [if_neg hm, hat_ge (inv_perm ha) (by omega)]
  rw [← h3, h2]
  unfold expansion
  rw [List.map_map]
  congr 1
  apply List.map_congr_left
  intro t ht
  rw [Function.comp, symmetrize_pos ha hc hF (hon t ht) (hs t ht), axSum_symmetrize_mul hirr hD hc (hon t ht) hT σ (small S c a σ)]
  have := sqrt_ne c
  field_simp

theorem expansion_append (d : ℕ → ℕ) (f : List ℕ) (A B : List Ten) (t : Ten) (σ : ℕ → ℕ) : expansion d f (A ++ B) t σ = expansion d f A t σ + expansion d f B t σ := by
  unfold expansion
  rw [List.map_append, List.sum_append]

/-- All the arrangements together are an orthonormal basis of the symmetric arrays. -/
theorem symmetrize_obasis {irr : List Irreps} {S : Irreps} {d : ℕ} (hS : 0 < S.length) (hirr : irr.length = d) (hD : ∀ m < d, axisDim irr m = S.dim)
    (L : List ℕ → List Ten) (hon : ∀ p ∈ tuplesWithSum S.length d, ∀ t ∈ L p, On (List.range d) t)
    (hs : ∀ p ∈ tuplesWithSum S.length d, ∀ t ∈ L p, Symm (irrc S (reps 0 p)) (groupC (reps 0 p)) t)
    (hO : ∀ p ∈ tuplesWithSum S.length d, OBasis (irrc S (reps 0 p)) (groupC (reps 0 p)) (List.range d) (L p)) :
    OBasis irr (symmetricPermRepr d) (List.range d) ((tuplesWithSum S.length d).flatMap fun p => (L p).map (symmetrize S (reps 0 p))) ∧
    ∀ z ∈ (tuplesWithSum S.length d).flatMap fun p => (L p).map (symmetrize S (reps 0 p)), On (List.range d) z ∧ Symm irr (symmetricPermRepr d) z := by
  have hlen : ∀ p ∈ tuplesWithSum S.length d, (reps 0 p).length = d := fun p hp => by rw [reps_length]; exact ((mem_tuples _ _ _ hS).mp hp).2
  have hcl : ∀ p ∈ tuplesWithSum S.length d, ∀ k < (reps 0 p).length, (reps 0 p).getD k 0 < S.length := by
    intro p hp k hk
    rw [List.getD_eq_getElem _ _ hk]
    have := (reps_ge (List.getElem_mem hk)).2
    rw [((mem_tuples _ _ _ hS).mp hp).1] at this
    omega
  have hp : ∀ p ∈ tuplesWithSum S.length d, ∀ s ∈ L p, ∀ t ∈ L p, ∀ σ, axSum (axisDim irr) (List.range d) (symmetrize S (reps 0 p) s * symmetrize S (reps 0 p) t) σ =
      axSum (axisDim (irrc S (reps 0 p))) (List.range d) (s * t) σ := by
    intro p hp s hs' t ht' σ
    have := inner_symmetrize (hcl p hp) (D := axisDim irr) (fun m hm => hD m (by rw [hlen p hp] at hm; exact hm)) (s := s) (t := t)
      (by rw [hlen p hp]; exact hon p hp s hs') (by rw [hlen p hp]; exact hon p hp t ht') (hs p hp s hs') (hs p hp t ht') σ σ
    rwa [hlen p hp] at this
  refine ⟨⟨?_, ?_, ?_⟩, ?_⟩
  · rw [List.flatMap_def, List.pairwise_flatten]
    refine ⟨?_, ?_⟩
    · intro l hl
      obtain ⟨p, hpm, rfl⟩ := List.mem_map.mp hl
      rw [List.pairwise_map]
      refine (hO p hpm).pair.imp_of_mem fun {x y} hx hy e => ?_
      funext σ
      rw [hp p hpm x hx y hy σ, e]
    · rw [List.pairwise_map]
      refine (tuples_nodup S.length d).imp_of_mem fun {p q} hpm hqm hne => ?_
      intro x hx y hy
      obtain ⟨s, -, rfl⟩ := List.mem_map.mp hx
      obtain ⟨t, -, rfl⟩ := List.mem_map.mp hy
      rw [symmetrize_disjoint (by rw [hlen p hpm, hlen q hqm]) _ s t, axSum_zero]
      intro hperm
      refine hne (reps_inj ?_ hperm)
      rw [((mem_tuples _ _ _ hS).mp hpm).1, ((mem_tuples _ _ _ hS).mp hqm).1]
  · intro z hz
    obtain ⟨p, hpm, hz⟩ := List.mem_flatMap.mp hz
    obtain ⟨t, ht, rfl⟩ := List.mem_map.mp hz
    funext σ
    rw [hp p hpm t ht t ht σ, (hO p hpm).norm t ht]
  · intro T hT σ hσ
    have hT' : Symm irr (symmetricPermRepr d) T := by
      have := (symOn_iff (irr := irr) (G := symmetricPermRepr d) (by rw [hirr]; exact symmetric_group) (t := T)).mp
      rw [hirr] at this
      exact this hT
    have hblk : ∀ m, ∃ k, m < d → k < S.length ∧ InB S k (σ m) := by
      intro m
      by_cases hm : m < d
      · have := hσ m (by omega)
        rw [hD m hm] at this
        obtain ⟨k, k1, k2⟩ := inB_exists this
        exact ⟨k, fun _ => ⟨k1, k2⟩⟩
      · exact ⟨0, fun h => absurd h hm⟩
    choose w hw using hblk
    set W := (List.range d).map w with hW
    have hWl : ∀ k ∈ W, k < S.length := by
      intro k hk
      obtain ⟨m, hm, rfl⟩ := List.mem_map.mp hk
      exact (hw m (List.mem_range.mp hm)).1
    have hpm := powersOf_mem (d := d) hS hWl (by simp [hW])
    set p := powersOf S.length W with hpdef
    obtain ⟨a, ha, hpat⟩ := exists_pat (reps_perm hWl)
    have hF : Fits S (reps 0 p) a σ := by
      intro m hm
      have hmd : m < d := by rw [hlen p hpm] at hm; exact hm
      have e := congrArg (fun l => l.getD m 0) hpat
      simp only [pat] at e
      rw [List.getD_eq_getElem _ _ (by rw [List.length_map, len_of ha]; exact hm), List.getElem_map, List.getD_eq_getElem W _ (by simpa [hW] using hmd)] at e
      rw [List.getD_eq_getElem a _ (by rw [len_of ha]; exact hm), e]
      simp only [hW, List.getElem_map, List.getElem_range]
      exact (hw m hmd).2
    have key : ∀ l : List (List ℕ), l.Nodup → (∀ q ∈ l, q ∈ tuplesWithSum S.length d) →
        expansion (axisDim irr) (List.range d) (l.flatMap fun p => (L p).map (symmetrize S (reps 0 p))) T σ = if p ∈ l then T σ else 0 := by
      intro l hl hsub
      induction l with
      | nil => simp [expansion]
      | cons q l ih =>
        rw [List.nodup_cons] at hl
        rw [List.flatMap_cons, expansion_append, ih hl.2 fun q hq => hsub q (by simp [hq])]
        by_cases e : p = q
        · subst e
          have := expansion_symmetrize ha (by rw [hirr, hlen p hpm]) (fun m hm => hD m (by rw [hlen p hpm] at hm; exact hm)) (hcl p hpm) (L := L p)
            (by rw [hlen p hpm]; exact hon p hpm) (hs p hpm) (by rw [hlen p hpm]; exact hO p hpm) (by rw [hlen p hpm]; exact hT') hσ hF
          rw [hlen p hpm] at this
          rw [this, if_neg hl.1, if_pos (by simp), add_zero]
        · have hq := hsub q (by simp)
          have hz : expansion (axisDim irr) (List.range d) ((L q).map (symmetrize S (reps 0 q))) T σ = 0 := by
            unfold expansion
            rw [List.map_map]
            apply List.sum_eq_zero
            intro y hy
            obtain ⟨t, -, rfl⟩ := List.mem_map.mp hy
            rw [Function.comp, symmetrize_neg, zero_mul]
            intro b hb hF'
            have e2 := hF.pat_eq ha hb (by rw [hlen p hpm, hlen q hq]) hF'
            refine e (reps_inj ?_ ((pat_perm ha).symm.trans (e2 ▸ pat_perm hb)))
            rw [((mem_tuples _ _ _ hS).mp hpm).1, ((mem_tuples _ _ _ hS).mp hq).1]
          rw [hz, zero_add]
          by_cases hmem : p ∈ l
          · rw [if_pos hmem, if_pos (by simp [hmem])]
          · rw [if_neg hmem, if_neg (by simp [hmem, e])]
    rw [key _ (tuples_nodup _ _) (fun q hq => hq), if_pos hpm]
  · intro z hz
    obtain ⟨p, hpm, hz⟩ := List.mem_flatMap.mp hz
    obtain ⟨t, ht, rfl⟩ := List.mem_map.mp hz
    have hon' : On (List.range (reps 0 p).length) t := by rw [hlen p hpm]; exact hon p hpm t ht
    refine ⟨by have := symmetrize_on (S := S) hon'; rwa [hlen p hpm] at this, fun q hq σ _ => ?_⟩
    rw [symmetrize_symm (hcl p hpm) hon' (hs p hpm t ht) (by rw [hlen p hpm]; exact hq) σ, (mem_symmetricPermRepr.mp hq).1]
    simp

end E3nn.RTP

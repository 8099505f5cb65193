import Verif.Lemmas.Parse

/-! # C03: text form of irreps -/

namespace E3nn
open Parse Text

/-- The parser accepts exactly the texts of the grammar `IrrepsText` (Spec/Parse.lean), with the
irreps they denote. -/
theorem C03_parse_iff (s : List Char) (x : Irreps) : parse s = .ok x ↔ IrrepsText s x :=
  parse_iff s x

/-- Every other text is rejected with `ValueError`. -/
theorem C03_parse_error (s : List Char) (h : ∀ x, ¬ IrrepsText s x) :
    parse s = .error .valueError := by
  cases hp : parse s with
  | ok x => exact absurd ((parse_iff s x).mp hp) (h x)
  | error e =>
    unfold parse at hp
    split at hp
    · exact absurd hp (by simp)
    · split at hp
      · simp only [Except.error.injEq] at hp; rw [hp]
      · exact absurd hp (by simp)

/-- `Irreps(str(x)) == x` for every non-empty `x`. -/
theorem C03_roundtrip (x : Irreps) (hx : x ≠ []) : parse («show» x) = .ok x := by
  rw [parse_iff]
  unfold «show»
  rw [if_neg hx]
  exact .inr (sumText_join x hx)

/-- `str` distinguishes different irreps. -/
theorem C03_show_injective (x y : Irreps) (hx : x ≠ []) (hy : y ≠ [])
    (h : «show» x = «show» y) : x = y := by
  have h1 := C03_roundtrip x hx
  have h2 := C03_roundtrip y hy
  rw [h, h2, Except.ok.injEq] at h1
  exact h1.symm

/-- The round trip is not affected by blanks around each multiplicity and each irrep:
`" 2 x 1o "` means the same as `"2x1o"`. -/
theorem C03_blanks (ts : List (List Char × List Char × List Char × List Char × MulIrrep))
    (hne : ts ≠ [])
    (hb : ∀ t ∈ ts, (∀ c ∈ t.1, Blank c) ∧ (∀ c ∈ t.2.1, Blank c) ∧
      (∀ c ∈ t.2.2.1, WideBlank c) ∧ (∀ c ∈ t.2.2.2.1, WideBlank c)) :
    parse (join '+' (ts.map fun t =>
      t.1 ++ showNat t.2.2.2.2.mul ++ t.2.1 ++ ['x'] ++ t.2.2.1 ++ showIrrep t.2.2.2.2.ir ++
        t.2.2.2.1)) = .ok (ts.map fun t => t.2.2.2.2) := by
  rw [parse_iff]
  right
  have hterm : ∀ t ∈ ts, TermText (t.1 ++ showNat t.2.2.2.2.mul ++ t.2.1 ++ ['x'] ++ t.2.2.1 ++
      showIrrep t.2.2.2.2.ir ++ t.2.2.2.1) t.2.2.2.2 := by
    rintro ⟨a, b, a', b', m⟩ ht
    obtain ⟨h1, h2, h3, h4⟩ := hb _ ht
    refine .inr ⟨a ++ showNat m.mul ++ b, a' ++ showIrrep m.ir ++ b', by simp, ?_, ?_⟩
    · exact ⟨a, [], showNat m.mul, b, by simp, h1, h2, natLit_showNat _, .inl rfl⟩
    · refine ⟨a', showNat m.ir.l, (match m.ir.p with | .e => 'e' | .o => 'o'), b', ?_, h3, h4,
        nonneg_showNat _, ?_⟩
      · unfold showIrrep; simp only [List.append_assoc, List.cons_append, List.nil_append]; rfl
      · cases m.ir.p <;> simp
  have hplus : ∀ t ∈ ts, '+' ∉ (t.1 ++ showNat t.2.2.2.2.mul ++ t.2.1 ++ ['x'] ++ t.2.2.1 ++
      showIrrep t.2.2.2.2.ir ++ t.2.2.2.1) := by
    rintro ⟨a, b, a', b', m⟩ ht
    obtain ⟨h1, h2, h3, h4⟩ := hb _ ht
    have hw : ∀ t : List Char, (∀ c ∈ t, WideBlank c) → '+' ∉ t := by
      intro t ht hx
      have := (isPySpace_iff '+').mpr (ht _ hx)
      exact absurd this (by decide)
    have hm := showTerm_no_plus m
    unfold showTerm at hm
    simp only [List.mem_append, List.mem_cons, not_or] at hm
    simp only [List.mem_append, List.mem_cons, List.not_mem_nil, or_false, not_or]
    exact ⟨⟨⟨⟨⟨⟨hw a fun c hc => .inl (h1 c hc), hm.1⟩, hw b fun c hc => .inl (h2 c hc)⟩,
      hm.2.1⟩, hw a' h3⟩, hm.2.2⟩, hw b' h4⟩
  clear hb
  induction ts with
  | nil => exact absurd rfl hne
  | cons t ts ih =>
    cases ts with
    | nil => exact SumText.single _ _ (hplus t (by simp)) (hterm t (by simp))
    | cons t' ts =>
      exact SumText.cons _ _ _ _ (hplus t (by simp)) (hterm t (by simp))
        (ih (by simp) (fun u hu => hterm u (by simp [hu])) (fun u hu => hplus u (by simp [hu])))

/-- The grammar is unambiguous. -/
theorem C03_unambiguous (s : List Char) (x y : Irreps) (hx : IrrepsText s x)
    (hy : IrrepsText s y) : x = y := by
  rw [← parse_iff] at hx hy
  rw [hx, Except.ok.injEq] at hy
  exact hy

/-- The exception stated in the property: the text of the empty `Irreps` is not accepted back,
although the empty text denotes it. -/
theorem C03_empty :
    parse («show» []) = .error .valueError ∧ parse [] = .ok [] := by
  constructor <;> decide +kernel

example : parse " 3 x 1o+2e + 04x0y".toList =
    .ok [⟨3, ⟨1, .o⟩⟩, ⟨1, ⟨2, .e⟩⟩, ⟨4, ⟨0, .e⟩⟩] := by decide +kernel
example : ([⟨16, ⟨0, .e⟩⟩, ⟨4, ⟨1, .o⟩⟩] : Irreps) ≠ [] := by simp
example : IrrepsText "2x1o".toList [⟨2, ⟨1, .o⟩⟩] := by rw [← C03_parse_iff]; decide +kernel
example : ∀ x, ¬ IrrepsText "1x".toList x := by
  intro x h
  rw [← C03_parse_iff] at h
  have : parse "1x".toList = .error .valueError := by decide +kernel
  rw [this] at h; exact absurd h (by simp)

end E3nn

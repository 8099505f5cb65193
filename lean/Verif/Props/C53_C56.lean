import Verif.Model.Config
import Verif.Model.Tuples
import Mathlib.Data.List.Basic
import Mathlib.Data.List.Nodup
import Mathlib.Data.Nat.Choose.Basic
import Mathlib.Data.Nat.Choose.Sum
import Mathlib.Algebra.BigOperators.Intervals
import Mathlib.Tactic.Ring

/-! # C53: the configuration; C56: the tuples with a given sum -/

namespace E3nn.Config

/-- The last value that the calls set for `k`. -/
def lastSet (k : String) : List (String × Option Val) → Option Val
  | [] => none
  | call :: calls => (lastSet k calls).or (if call.1 = k then call.2 else none)

theorem lookup_assign (c : Conf) (n k : String) (v : Val) (h : (lookup c n).isSome) :
    lookup (assign c n v) k = if n = k then some v else lookup c k := by
  unfold lookup assign at *
  induction c with
  | nil => simp at h
  | cons kv c ih =>
    by_cases h1 : kv.1 = n
    · by_cases h2 : n = k
      · simp [List.find?_cons, h1, h2]
      · have : ¬ kv.1 = k := by rw [h1]; exact h2
        simp only [List.map_cons, List.find?_cons, h1, beq_self_eq_true, if_true, if_neg h2]
        rw [show (n == k) = false by simpa using h2]
        simp only
        clear h ih
        induction c with
        | nil => rfl
        | cons kv c ih =>
          by_cases h3 : kv.1 = n
          · simp only [List.map_cons, List.find?_cons, h3, beq_self_eq_true, if_true, show (n == k) = false by simpa using h2]
            exact ih
          · simp only [List.map_cons, List.find?_cons, show (kv.1 == n) = false by simpa using h3, Bool.false_eq_true, if_false]
            by_cases h4 : kv.1 = k
            · simp [h4]
            · simp only [show (kv.1 == k) = false by simpa using h4]
              exact ih
    · have hb : (kv.1 == n) = false := by simpa using h1
      simp only [List.find?_cons, hb] at h
      simp only [List.map_cons, List.find?_cons, hb, Bool.false_eq_true, if_false]
      by_cases h4 : kv.1 = k
      · have : ¬ n = k := by rw [← h4]; exact fun h => h1 h.symm
        simp [h4, this]
      · simp only [show (kv.1 == k) = false by simpa using h4]
        exact ih h

theorem lookup_config (c : Conf) (call : String × Option Val) (k : String) :
    lookup (config c call.1 call.2).2 k = if (lookup c k).isSome then ((if call.1 = k then call.2 else none).or (lookup c k)) else none := by
  obtain ⟨n, v⟩ := call
  cases v with
  | none =>
    simp only [config]
    have e : ∀ o : Option Val, o = if o.isSome then ((if n = k then none else none : Option Val).or o) else none := by
      intro o; cases o <;> simp
    cases h : lookup c n <;> exact e _
  | some v =>
    simp only [config]
    by_cases h : (lookup c n).isSome
    · rw [if_pos h]
      simp only
      rw [lookup_assign c n k v h]
      by_cases h2 : n = k
      · subst h2; simp [h]
      · simp only [if_neg h2, Option.none_or]
        cases lookup c k <;> simp
    · rw [if_neg h]
      simp only
      by_cases h2 : n = k
      · subst h2
        have h' : lookup c n = none := by cases hh : lookup c n with
          | none => rfl
          | some w => rw [hh] at h; simp at h
        simp [h']
      · simp only [if_neg h2, Option.none_or]
        cases lookup c k <;> simp

theorem lookup_run (c : Conf) (calls : List (String × Option Val)) (k : String) :
    lookup (run c calls) k = if (lookup c k).isSome then (lastSet k calls).or (lookup c k) else none := by
  induction calls generalizing c with
  | nil => simp only [run, lastSet, Option.none_or]; cases lookup c k <;> simp
  | cons call calls ih =>
    simp only [run, lastSet]
    rw [ih, lookup_config]
    cases hk : lookup c k with
    | none => simp
    | some w =>
      cases h1 : lastSet k calls with
      | none => cases h2 : (if call.1 = k then call.2 else none) <;> simp
      | some u => cases h2 : (if call.1 = k then call.2 else none) <;> simp

/-- The options and their defaults. -/
def defaultOf (k : String) : Option Val := (defaultConf.find? fun kv => kv.1 == k).map Prod.snd

/-- **C53.** After any sequence of calls `config(name[, value])` starting from the defaults: `config(k)` returns the last value set for `k`, or the
default of `k`, and raises `KeyError` if `k` is not an option; `config(k, v)` raises `ValueError` iff `k` is not an option; neither reading nor a call
that raises changes the configuration. -/
theorem C53_config (calls : List (String × Option Val)) (k : String) :
    (∀ d, defaultOf k = some d → (config (run defaultConf calls) k none).1 = .ok (some ((lastSet k calls).getD d)) ∧
      ∀ v, (config (run defaultConf calls) k (some v)).1 = .ok none) ∧
    (defaultOf k = none → (config (run defaultConf calls) k none).1 = .error .keyError ∧
      ∀ v, (config (run defaultConf calls) k (some v)).1 = .error .valueError) ∧
    (∀ c name, (config c name none).2 = c) ∧ (∀ c name v e, (config c name (some v)).1 = .error e → (config c name (some v)).2 = c) := by
  have hl := lookup_run defaultConf calls k
  have hd : lookup defaultConf k = defaultOf k := rfl
  rw [hd] at hl
  refine ⟨?_, ?_, ?_, ?_⟩
  · intro d h
    rw [h] at hl
    have e : lookup (run defaultConf calls) k = some ((lastSet k calls).getD d) := by
      rw [hl]; cases lastSet k calls <;> simp
    constructor
    · simp [config, e]
    · intro v; simp [config, e]
  · intro h
    rw [h] at hl
    have e : lookup (run defaultConf calls) k = none := by rw [hl]; simp
    constructor
    · simp [config, e]
    · intro v; simp [config, e]
  · intro c name
    simp only [config]
    cases lookup c name <;> rfl
  · intro c name v e h
    simp only [config] at h ⊢
    split at h
    · cases h
    · rename_i hn; rw [if_neg hn]

/-- Setting one option leaves the others alone, and the new value is read back. -/
theorem C53_set_get (calls : List (String × Option Val)) (k j : String) (v : Val) (hk : (defaultOf k).isSome) :
    (config (run defaultConf (calls ++ [(k, some v)])) k none).1 = .ok (some v) ∧
    (j ≠ k → (config (run defaultConf (calls ++ [(k, some v)])) j none).1 = (config (run defaultConf calls) j none).1) := by
  have hls : ∀ (cs : List (String × Option Val)) (i : String), lastSet i (cs ++ [(k, some v)]) = if k = i then some v else lastSet i cs := by
    intro cs i
    induction cs with
    | nil => simp [lastSet]
    | cons c cs ih =>
      simp only [List.cons_append, lastSet, ih]
      split <;> simp
  obtain ⟨d, hd⟩ := Option.isSome_iff_exists.mp hk
  constructor
  · rw [((C53_config (calls ++ [(k, some v)]) k).1 d hd).1, hls, if_pos rfl]; rfl
  · intro hj
    cases hd' : defaultOf j with
    | none => rw [((C53_config _ j).2.1 hd').1, ((C53_config _ j).2.1 hd').1]
    | some d' => rw [((C53_config _ j).1 d' hd').1, ((C53_config _ j).1 d' hd').1, hls, if_neg (fun h => hj h.symm)]

example : (config (run defaultConf [("fused", some (.bool true)), ("nope", some (.bool true)), ("fused", none)]) "fused" none).1 = .ok (some (.bool true)) := by
  decide

end E3nn.Config

namespace E3nn.Tuples

theorem mapM_ok' {α β : Type} {f : α → Except PyErr β} {g : α → β} (l : List α) (h : ∀ a ∈ l, f a = .ok (g a)) : l.mapM f = .ok (l.map g) := by
  induction l with
  | nil => rfl
  | cons a l ih =>
    rw [List.mapM_cons, h a List.mem_cons_self, ih fun b hb => h b (List.mem_cons_of_mem _ hb)]
    rfl

/-- **C56.** For every length `n ≥ 1` and every sum, the generator yields each tuple of `n` non-negative integers with that sum exactly once,
and there are `(n - 1 + sum) choose sum` of them. -/
theorem C56_tuples (n s : Nat) (hn : 1 ≤ n) :
    ∃ ts, generate n s = .ok ts ∧ ts.Nodup ∧ (∀ t, t ∈ ts ↔ t.length = n ∧ t.sum = s) ∧ ts.length = (n - 1 + s).choose s := by
  induction n generalizing s with
  | zero => omega
  | succ n ih =>
    cases n with
    | zero =>
      refine ⟨[[s]], rfl, by simp, ?_, by simp⟩
      intro t
      constructor
      · intro h; simp only [List.mem_singleton] at h; subst h; simp
      · rintro ⟨h1, h2⟩
        match t, h1 with
        | [a], _ => simp at h2; simp [h2]
    | succ n =>
      cases s with
      | zero =>
        refine ⟨[List.replicate (n + 2) 0], rfl, by simp, ?_, by simp⟩
        intro t
        rw [List.mem_singleton]
        constructor
        · rintro rfl; simp
        · rintro ⟨h1, h2⟩
          rw [List.eq_replicate_iff]
          refine ⟨h1, fun b hb => ?_⟩
          exact Nat.eq_zero_of_le_zero (h2 ▸ List.single_le_sum (by simp) b hb)
      | succ s =>
        choose g hg using fun s => ih s (by omega)
        have hm : (List.range (s + 2)).reverse.mapM (fun first => do
            let ts ← generate (n + 1) (s + 1 - first)
            return ts.map fun t => first :: t) = .ok ((List.range (s + 2)).reverse.map fun first => (g (s + 1 - first)).map fun t => first :: t) := by
          apply mapM_ok'
          intro a _
          rw [(hg _).1]; rfl
        refine ⟨((List.range (s + 2)).reverse.map fun first => (g (s + 1 - first)).map fun t => first :: t).flatten, ?_, ?_, ?_, ?_⟩
        · show (do
            let rs ← (List.range (s + 2)).reverse.mapM fun first => do
              let ts ← generate (n + 1) (s + 1 - first)
              return ts.map fun t => first :: t
            return rs.flatten) = _
          rw [hm]; rfl
        · rw [List.nodup_flatten]
          constructor
          · intro l hl
            obtain ⟨a, -, rfl⟩ := List.mem_map.mp hl
            exact (hg _).2.1.map fun x y h => (List.cons.inj h).2
          · rw [List.pairwise_map]
            refine List.Pairwise.imp_of_mem ?_ (List.nodup_reverse.mpr List.nodup_range)
            intro a b _ _ hab
            rw [List.disjoint_left]
            rintro t h1 h2
            obtain ⟨u, -, rfl⟩ := List.mem_map.mp h1
            obtain ⟨w, -, e⟩ := List.mem_map.mp h2
            exact hab (List.cons.inj e).1.symm
        · intro t
          simp only [List.mem_flatten, List.mem_map, List.mem_reverse, List.mem_range]
          constructor
          · rintro ⟨l, ⟨a, ha, rfl⟩, h⟩
            obtain ⟨u, hu, rfl⟩ := List.mem_map.mp h
            obtain ⟨h1, h2⟩ := ((hg _).2.2.1 u).mp hu
            simp only [List.length_cons, List.sum_cons, h1, h2]
            exact ⟨trivial, by omega⟩
          · rintro ⟨h1, h2⟩
            cases t with
            | nil => simp at h1
            | cons a u =>
              simp only [List.length_cons, List.sum_cons] at h1 h2
              exact ⟨_, ⟨a, by omega, rfl⟩, List.mem_map.mpr ⟨u, ((hg _).2.2.1 u).mpr ⟨by omega, by omega⟩, rfl⟩⟩
        · rw [List.length_flatten, List.map_map]
          have e : (List.length ∘ fun first => (g (s + 1 - first)).map fun t => first :: t) = fun first => (n + (s + 1 - first)).choose (s + 1 - first) := by
            funext first
            simp only [Function.comp, List.length_map, (hg _).2.2.2]
            rfl
          rw [e, List.map_reverse, List.sum_reverse]
          have key : ∀ m, ((List.range (m + 1)).map fun first => (n + (m - first)).choose (m - first)).sum = (n + 1 + m).choose m := by
            intro m
            induction m with
            | zero => simp
            | succ m ihm =>
              rw [List.range_succ_eq_map, List.map_cons, List.sum_cons, List.map_map]
              have : ((fun first => (n + (m + 1 - first)).choose (m + 1 - first)) ∘ Nat.succ) = fun first => (n + (m - first)).choose (m - first) := by
                funext f; simp only [Function.comp, Nat.succ_eq_add_one, Nat.add_sub_add_right]
              rw [this, ihm]
              have h := Nat.choose_succ_succ (n + 1 + m) m
              rw [show n + 1 + (m + 1) = (n + 1 + m) + 1 by omega, h, Nat.sub_zero, show n + (m + 1) = n + 1 + m by omega, Nat.add_comm]
          exact key (s + 1)

/-- Length zero: one empty tuple for the sum zero, endless recursion otherwise. -/
theorem C56_length_zero (s : Nat) : generate 0 0 = .ok [[]] ∧ generate 0 (s + 1) = .error .diverges := ⟨rfl, rfl⟩

example : generate 3 2 = .ok [[2, 0, 0], [1, 1, 0], [1, 0, 1], [0, 2, 0], [0, 1, 1], [0, 0, 2]] := by decide

end E3nn.Tuples

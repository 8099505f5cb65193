import Verif.Lemmas.MessagePassing
import Verif.Lemmas.Activation

/-!
# More operations that commute with reindexing of the leading axes
-/

namespace E3nn
open IArr

section general
variable {α β : Type} [Zero α] [Zero β] {φ : α → β}

theorem mp_chunks (h0 : φ 0 = 0) {ms : Irreps} {cs : List (Chunk α)} {cs' : List (Chunk β)} (h3 : ms.length = cs.length → cs.map (mapChunk φ) = cs') {y : IArr α}
    (hy : fromChunks ms cs = .ok y) : ∃ y', fromChunks ms cs' = .ok y' ∧ Mp φ y y' := by
  obtain ⟨h1, h2⟩ := fromChunks_shaped hy
  refine mp_fromChunks h0 h2 (List.map_fst_zip (by omega)) (List.map_snd_zip (by omega)) ?_ hy
  rw [← h3 h1, List.map_map]
  conv_rhs => rw [← List.map_snd_zip (l₁ := ms) (l₂ := cs) (by omega), List.map_map]
  rfl

theorem mp_simplify {x y : IArr α} {x' : IArr β} (h : Mp φ x x') (hy : x.simplify = .ok y) : ∃ y', x'.simplify = .ok y' ∧ Mp φ y y' := by
  unfold IArr.simplify at *
  rw [h.irreps]
  exact mp_rechunk h hy

theorem sliceByMulLoop_mp (start stop i : Nat) (ps : List (MulIrrep × Chunk α)) :
    sliceByMulLoop start stop i (ps.map (MP φ)) = (sliceByMulLoop start stop i ps).map fun r => r.map fun q => (q.1, mapChunk φ q.2) := by
  induction ps generalizing i with
  | nil => rfl
  | cons p ps ih =>
    obtain ⟨m, c⟩ := p
    simp only [List.map_cons, MP, sliceByMulLoop]
    split
    · rw [ih]
      cases sliceByMulLoop start stop (i + m.mul) ps <;> rfl
    · split
      · cases c with
        | none => rfl
        | some c =>
          simp only [mapChunk, Option.map_some]
          rw [ih]
          cases sliceByMulLoop start stop (i + m.mul) ps with
          | error e => rfl
          | ok r =>
            simp only [Except.map, bind, Except.bind, pure, Except.pure, List.map_cons, mapChunk, Option.map_some, List.map_drop, List.map_take]
      · exact ih _

theorem mp_sliceByMul (h0 : φ 0 = 0) {x y : IArr α} {x' : IArr β} (h : Mp φ x x') {s : PySlice} (hy : x.sliceByMul s = .ok y) : ∃ y', x'.sliceByMul s = .ok y' ∧ Mp φ y y' := by
  unfold sliceByMul at *
  split at hy
  · simp at hy
  · rename_i h0'
    rw [if_neg h0']
    split at hy
    · rename_i h1
      rw [if_pos h1, h.pairs]
      simp only [sliceByMulLoop_mp, h.irreps, bind, Except.bind] at *
      split at hy
      · simp at hy
      · rename_i r hr
        rw [hr]
        simp only [Except.map]
        split at hy
        · simp at hy
        · rename_i ms hms
          have e : (r.map fun q => (q.1, mapChunk φ q.2)).map Prod.fst = r.map Prod.fst := by
            rw [List.map_map]; rfl
          rw [e, hms]
          exact mp_chunks h0 (fun _ => by rw [List.map_map, List.map_map]; rfl) hy
    · simp at hy

end general

namespace MPC
open E3nn.Wig E3nn.SH E3nn.Activ

variable {ν ε : Type} (i : ε → ν)

theorem mp_scaleCols {f : ℝ → ℝ} (h0 : f 0 = 0) {x y : IArr (ν → ℝ)} {x' : IArr (ε → ℝ)} (h : Mp (pull i) x x') (hy : x.scale (fun col v => f (col v)) = .ok y) :
    ∃ y', x'.scale (fun col v => f (col v)) = .ok y' ∧ Mp (pull i) y y' := by
  unfold IArr.scale at *
  rw [h.irreps]
  split at hy
  · cases hy
  · obtain ⟨w, w1, w2⟩ := mp_mapCols (φ := fun (col : ν → ℝ) v => f (col v)) (by funext v; exact h0) h.inv
    obtain ⟨w', w1', w2'⟩ := mp_mapCols (φ := fun (col : ε → ℝ) v => f (col v)) (by funext v; exact h0) h.inv'
    rw [w1] at hy
    cases hy
    exact ⟨w', w1', Mp.square (φ := fun (col : ν → ℝ) v => f (col v)) (ψ := pull i) (φ' := pull i) (ψ' := fun (col : ε → ℝ) v => f (col v)) (fun a => rfl) w2 h w2'⟩

theorem make_flags {α : Type} {ms : Irreps} {a : List α} {f : List Bool} {c : Option (List (Chunk α))} {y : IArr α} (h : make ms a (some f) c = .ok y) : y.zeroFlags = f := by
  unfold make at h
  split_ifs at h
  all_goals first | (cases h; done) | (cases h; rfl)

theorem mp_add {x y z : IArr (ν → ℝ)} {x' y' : IArr (ε → ℝ)} (h : Mp (pull i) x x') (k : Mp (pull i) y y') (hz : x.add y = .ok z) : ∃ z', x'.add y' = .ok z' ∧ Mp (pull i) z z' := by
  have hi : x.irreps = y.irreps := by
    by_contra hi
    unfold IArr.add at hz
    rw [if_pos hi] at hz
    cases hz
  obtain ⟨w, w1, w2, w3, w4⟩ := add_spec h.inv k.inv hi
  obtain ⟨w', w1', w2', w3', w4'⟩ := add_spec h.inv' k.inv' (by rw [h.irreps, k.irreps, hi])
  have hf : ∀ {κ : Type} {a b c : IArr (κ → ℝ)}, a.irreps = b.irreps → a.add b = .ok c → c.zeroFlags = List.zipWith (· && ·) a.zeroFlags b.zeroFlags := by
    intro κ a b c hab hc
    unfold IArr.add at hc
    rw [if_neg (by simpa using hab)] at hc
    exact make_flags hc
  rw [hz] at w1
  cases w1
  refine ⟨w', w1', w2, w2', by rw [w3', w3, h.irreps], by rw [hf (by rw [h.irreps, k.irreps, hi]) w1', hf hi hz, h.flags, k.flags], ?_⟩
  rw [w4', w4, h.array, k.array, List.zipWith_map, List.map_zipWith]
  rfl

theorem mp_sub {x y z : IArr (ν → ℝ)} {x' y' : IArr (ε → ℝ)} (h : Mp (pull i) x x') (k : Mp (pull i) y y') (hz : x.sub y = .ok z) : ∃ z', x'.sub y' = .ok z' ∧ Mp (pull i) z z' := by
  have hi : x.irreps = y.irreps := by
    by_contra hi
    unfold IArr.sub at hz
    rw [if_pos hi] at hz
    cases hz
  obtain ⟨w, w1, w2, w3, w4⟩ := sub_spec h.inv k.inv hi
  obtain ⟨w', w1', w2', w3', w4'⟩ := sub_spec h.inv' k.inv' (by rw [h.irreps, k.irreps, hi])
  have hf : ∀ {κ : Type} {a b c : IArr (κ → ℝ)}, a.irreps = b.irreps → a.sub b = .ok c → c.zeroFlags = List.zipWith (· && ·) a.zeroFlags b.zeroFlags := by
    intro κ a b c hab hc
    unfold IArr.sub at hc
    rw [if_neg (by simpa using hab)] at hc
    exact make_flags hc
  rw [hz] at w1
  cases w1
  refine ⟨w', w1', w2, w2', by rw [w3', w3, h.irreps], by rw [hf (by rw [h.irreps, k.irreps, hi]) w1', hf hi hz, h.flags, k.flags], ?_⟩
  rw [w4', w4, h.array, k.array, List.zipWith_map, List.map_zipWith]
  rfl

theorem normRow_pull (comp : Bool) (phi : ℝ → ℝ) (r : List (ν → ℝ)) : normRow comp phi (r.map (pull i)) = (normRow comp phi r).map (pull i) := by
  unfold normRow rowNorm
  rw [List.map_map, List.map_map]
  refine List.map_congr_left fun v _ => ?_
  funext e
  simp only [Function.comp, List.map_map, List.length_map]
  rfl

theorem mp_normActivation (env : ℕ → ℝ → ℝ) (acts : List (Option ℕ)) (comp : Bool) {x y : IArr (ν → ℝ)} {x' : IArr (ε → ℝ)} (h : Mp (pull i) x x')
    (hy : normActivation env acts comp x = .ok y) : ∃ y', normActivation env acts comp x' = .ok y' ∧ Mp (pull i) y y' := by
  unfold normActivation at *
  rw [h.irreps]
  split_ifs at hy ⊢
  refine mp_chunks (map_zero _) (fun _ => ?_) hy
  rw [h.chunks, List.map_map, List.zip_map_left, List.map_map]
  refine List.map_congr_left fun q _ => ?_
  obtain ⟨c, a⟩ := q
  cases a with
  | none => rfl
  | some a =>
    cases c with
    | none => rfl
    | some rows =>
      simp only [Function.comp, mapChunk, Prod.map, Option.map_some, List.map_map, id]
      congr 1
      refine List.map_congr_left fun r _ => ?_
      exact (normRow_pull i comp (env a) r).symm

theorem rowDot_pull (a b : List (ν → ℝ)) : Basic.rowDot (a.map (pull i)) (b.map (pull i)) = pull i (Basic.rowDot a b) := by
  unfold Basic.rowDot
  rw [map_list_sum, List.map_zipWith, List.zipWith_map]
  rfl

theorem basicNormRow_pull (sq : Bool) (r : List (ν → ℝ)) : Basic.normRow sq (r.map (pull i)) = (Basic.normRow sq r).map (pull i) := by
  unfold Basic.normRow
  simp only [rowDot_pull]
  cases sq <;> rfl

theorem mp_ofArray {ms : Irreps} {a : List (ν → ℝ)} {y : IArr (ν → ℝ)} (hy : ofArray ms a = .ok y) : ∃ y', ofArray ms (a.map (pull i)) = .ok y' ∧ Mp (pull i) y y' := by
  by_cases hd : a.length = Irreps.dim ms
  · obtain ⟨u1, u2⟩ := make_noflags hd
    obtain ⟨w1, w2⟩ := make_noflags (show (a.map (pull i)).length = Irreps.dim ms by rw [List.length_map, hd])
    unfold ofArray at *
    rw [u1] at hy
    cases hy
    exact ⟨_, w1, u2, w2, rfl, rfl, rfl⟩
  · exfalso
    unfold ofArray make at hy
    simp [hd] at hy

theorem mp_norm (sq per : Bool) {x y : IArr (ν → ℝ)} {x' : IArr (ε → ℝ)} (h : Mp (pull i) x x') (hy : Basic.norm sq per x = .ok y) :
    ∃ y', Basic.norm sq per x' = .ok y' ∧ Mp (pull i) y y' := by
  unfold Basic.norm at *
  rw [h.irreps]
  split_ifs at hy ⊢
  · refine mp_chunks (map_zero _) (fun _ => ?_) hy
    rw [h.chunks, List.map_map, List.map_map]
    refine List.map_congr_left fun c _ => ?_
    cases c with
    | none => rfl
    | some rows =>
      simp only [Function.comp, mapChunk, Option.map_some, List.map_map]
      congr 1
      refine List.map_congr_left fun r _ => ?_
      exact (basicNormRow_pull i sq r).symm
  · rw [h.array, basicNormRow_pull]
    exact mp_ofArray i hy

theorem mp_zeros {ms : Irreps} {y : IArr (ν → ℝ)} (hy : zeros ms = .ok y) : ∃ y', zeros (α := ε → ℝ) ms = .ok y' ∧ Mp (pull i) y y' := by
  obtain ⟨z, z1, z2, z3, z4, -⟩ := (C12_zeros_ones (α := ν → ℝ) ms).1
  obtain ⟨z', z1', z2', z3', z4', -⟩ := (C12_zeros_ones (α := ε → ℝ) ms).1
  rw [hy] at z1
  cases z1
  refine ⟨z', z1', z2.inv, z2'.inv, by rw [z3, z3'], ?_, ?_⟩
  · unfold zeros at hy z1'
    rw [make_flags hy, make_flags z1']
  · rw [z4, z4', List.map_replicate, map_zero]

theorem mp_dot (per : Bool) {a b y : IArr (ν → ℝ)} {a' b' : IArr (ε → ℝ)} (ha : Mp (pull i) a a') (hb : Mp (pull i) b b') (hy : Basic.dot per a b = .ok y) :
    ∃ y', Basic.dot per a' b' = .ok y' ∧ Mp (pull i) y y' := by
  unfold Basic.dot at *
  cases h1 : a.simplify with
  | error e => rw [h1] at hy; cases hy
  | ok u =>
    obtain ⟨u', k1, hu⟩ := mp_simplify ha h1
    simp only [h1, k1, bind, Except.bind] at hy ⊢
    cases h2 : b.simplify with
    | error e => rw [h2] at hy; cases hy
    | ok v =>
      obtain ⟨v', k2, hv⟩ := mp_simplify hb h2
      simp only [h2, k2, hu.irreps, hv.irreps] at hy ⊢
      split_ifs at hy ⊢
      · refine mp_chunks (map_zero _) (fun _ => ?_) hy
        rw [hu.chunks, hv.chunks, List.map_zipWith, List.zipWith_map]
        congr 1
        funext c d
        cases c with
        | none => rfl
        | some c =>
          cases d with
          | none => rfl
          | some d =>
            simp only [Basic.dotChunk, mapChunk, Option.map_some, List.map_zipWith, List.zipWith_map, rowDot_pull, List.map_cons, List.map_nil]
      · have key : ∀ (L : List (Chunk (ν → ℝ) × Chunk (ν → ℝ))) (acc : Option (ν → ℝ)),
            (L.map fun q => (mapChunk (pull i) q.1, mapChunk (pull i) q.2)).foldl Basic.dotStep (acc.map (pull i)) = (L.foldl Basic.dotStep acc).map (pull i) := by
          intro L
          induction L with
          | nil => intro acc; rfl
          | cons q L ih =>
            intro acc
            obtain ⟨c, d⟩ := q
            rw [List.map_cons, List.foldl_cons, List.foldl_cons, ← ih]
            congr 1
            cases c with
            | none => rfl
            | some c =>
              cases d with
              | none => rfl
              | some d =>
                simp only [Basic.dotStep, mapChunk, Option.map_some]
                congr 1
                rw [map_add, map_list_sum, List.map_zipWith, List.zipWith_map]
                simp only [rowDot_pull]
                cases acc <;> simp
        have hz : u'.chunks.zip v'.chunks = (u.chunks.zip v.chunks).map fun q => (mapChunk (pull i) q.1, mapChunk (pull i) q.2) := by
          rw [hu.chunks, hv.chunks, List.zip_map]; rfl
        rw [hz, show (none : Option (ε → ℝ)) = (none : Option (ν → ℝ)).map (pull i) from rfl, key]
        cases hfold : (u.chunks.zip v.chunks).foldl Basic.dotStep none with
        | none =>
          rw [hfold] at hy
          simp only [Option.map_none] at hy ⊢
          exact mp_zeros i hy
        | some o =>
          rw [hfold] at hy
          simp only [Option.map_some] at hy ⊢
          exact mp_ofArray i hy

theorem crossRow_pull (a b : List (ν → ℝ)) : Basic.crossRow (a.map (pull i)) (b.map (pull i)) = (Basic.crossRow a b).map (pull i) := by
  have hg : ∀ (l : List (ν → ℝ)) (k : ℕ), (l.map (pull i)).getD k 0 = pull i (l.getD k 0) := by
    intro l k
    rw [List.getD_eq_getElem?_getD, List.getD_eq_getElem?_getD, List.getElem?_map]
    cases l[k]? <;> simp
  simp only [Basic.crossRow, hg, List.map_cons, List.map_nil, map_sub, map_mul]

theorem mp_alignArrays {a b : IArr (ν → ℝ)} {a' b' : IArr (ε → ℝ)} (ha : Mp (pull i) a a') (hb : Mp (pull i) b b') {r : IArr (ν → ℝ) × IArr (ν → ℝ)}
    (hr : TP.alignArrays a b = .ok r) : ∃ r', TP.alignArrays a' b' = .ok r' ∧ Mp (pull i) r.1 r'.1 ∧ Mp (pull i) r.2 r'.2 := by
  unfold TP.alignArrays at *
  rw [ha.irreps, hb.irreps]
  cases h1 : TP.alignTwo a.irreps b.irreps with
  | error e => rw [h1] at hr; cases hr
  | ok q =>
    simp only [h1, bind, Except.bind] at hr ⊢
    cases h2 : a.rechunk q.1 with
    | error e => rw [h2] at hr; cases hr
    | ok u =>
      obtain ⟨u', k1, hu⟩ := mp_rechunk ha h2
      simp only [h2, k1] at hr ⊢
      cases h3 : b.rechunk q.2 with
      | error e => rw [h3] at hr; cases hr
      | ok v =>
        obtain ⟨v', k2, hv⟩ := mp_rechunk hb h3
        simp only [h3, k2, hu.irreps, hv.irreps] at hr ⊢
        split_ifs at hr ⊢
        cases hr
        exact ⟨_, rfl, hu, hv⟩

theorem mp_cross {a b y : IArr (ν → ℝ)} {a' b' : IArr (ε → ℝ)} (ha : Mp (pull i) a a') (hb : Mp (pull i) b b') (hy : Basic.cross a b = .ok y) :
    ∃ y', Basic.cross a' b' = .ok y' ∧ Mp (pull i) y y' := by
  unfold Basic.cross at *
  rw [ha.irreps, hb.irreps]
  split_ifs at hy ⊢
  cases h1 : TP.alignArrays a b with
  | error e => simp only [h1, bind, Except.bind] at hy; cases hy
  | ok r =>
    obtain ⟨r', k1, k2, k3⟩ := mp_alignArrays i ha hb h1
    simp only [h1, k1, bind, Except.bind, k2.irreps, k3.irreps] at hy ⊢
    refine mp_chunks (map_zero _) (fun _ => ?_) hy
    rw [k2.chunks, k3.chunks, List.map_zipWith, List.zipWith_map]
    congr 1
    funext c d
    cases c with
    | none => rfl
    | some c =>
      cases d with
      | none => rfl
      | some d => simp only [Basic.crossChunk, mapChunk, Option.map_some, List.map_zipWith, List.zipWith_map, crossRow_pull]

theorem mp_scalarActivation (env : ℕ → ℝ → ℝ) (ptsN : List ℝ) (acts? : Option (List (Option ℕ))) (even odd : ℕ) (nrm : Bool) {x y : IArr (ν → ℝ)} {x' : IArr (ε → ℝ)} (h : Mp (pull i) x x')
    (hZ : ∀ q ∈ (x.irreps.zip x.chunks).zip (acts?.getD (defaultActs even odd x.irreps)), q.1.2 = none → ∀ b, q.2 = some b → effective env ptsN nrm b 0 = 0)
    (hy : scalarActivation env ptsN acts? even odd nrm x = .ok y) : ∃ y', scalarActivation env ptsN acts? even odd nrm x' = .ok y' ∧ Mp (pull i) y y' := by
  have hl : x.irreps.length = (acts?.getD (defaultActs even odd x.irreps)).length := by
    by_contra hl
    unfold scalarActivation at hy
    simp only [hl, ne_eq, not_false_eq_true, if_true] at hy
    cases hy
  have hA : ∀ q ∈ x.irreps.zip (acts?.getD (defaultActs even odd x.irreps)), Activ.Allowed (effective env ptsN nrm) q.1 q.2 := by
    by_contra hA
    rw [activation_error env ptsN _ even odd nrm acts? rfl h.inv hl hA] at hy
    cases hy
  obtain ⟨u, u1, u2, u3, -⟩ := activation_spec env ptsN _ even odd nrm acts? rfl h.inv hl hA hZ
  rw [hy] at u1
  cases u1
  obtain ⟨y', z1, z2, z3, -⟩ := activation_spec env ptsN (acts?.getD (defaultActs even odd x.irreps)) even odd nrm (x := x') acts? (by rw [h.irreps]) h.inv' (by rw [h.irreps]; exact hl)
    (by rw [h.irreps]; exact hA) (by
      intro q hq hn b hb
      rw [h.pairs, List.zip_map_left] at hq
      obtain ⟨p, hp, rfl⟩ := List.mem_map.mp hq
      refine hZ p hp ?_ b hb
      obtain ⟨⟨m, c⟩, a⟩ := p
      cases c with
      | none => rfl
      | some c => simp [MP, mapChunk] at hn)
  refine ⟨y', z1, Mp.of_pairs (map_zero _) u2 z2 ?_⟩
  rw [z3, u3, h.pairs, List.zip_map_left, List.map_map, List.map_map]
  refine List.map_congr_left fun q _ => ?_
  obtain ⟨⟨m, c⟩, a⟩ := q
  cases c with
  | none => rfl
  | some c =>
    simp only [Function.comp, stepVal, MP, mapChunk, Prod.map, Option.map_some, id, List.map_map]
    congr 2
    refine List.map_congr_left fun r _ => ?_
    simp only [Function.comp, List.map_map]
    refine List.map_congr_left fun v _ => ?_
    cases a <;> rfl

theorem mp_sphericalHarmonics {cfg algorithm : Option (List String)} (halg : ∀ a, (algorithm <|> cfg) = some a → AlgOk a) (nrm : Normalization) (ls : List ℕ) (normalize : Bool)
    {p : Parity} {x : IArr (ν → ℝ)} {x' : IArr (ε → ℝ)} (h : Mp (pull i) x x') (hxi : x.irreps = [⟨1, ⟨1, p⟩⟩]) :
    ∃ y y', sphericalHarmonics cfg (.ints ls) (.arr x) normalize nrm algorithm = .ok y ∧ sphericalHarmonics cfg (.ints ls) (.arr x') normalize nrm algorithm = .ok y' ∧ Mp (pull i) y y' := by
  have ho : ∀ {κ : Type} {x : IArr (κ → ℝ)}, x.irreps = [⟨1, ⟨1, p⟩⟩] → outIrreps (.ints ls) (.arr x) = .ok (ls.map fun l => ⟨1, ⟨l, p.pow l⟩⟩) := by
    intro κ x hxi
    simp only [outIrreps, hxi, checkIsVector_ok]; rfl
  have hnum : ∀ ms : List ℕ, (Irreps.numIrreps (ms.map fun l => ⟨1, ⟨l, p.pow l⟩⟩) = 0) → ms = [] := by
    intro ms h
    cases ms with
    | nil => rfl
    | cons a ms => simp [Irreps.numIrreps] at h
  have hrun : ∀ {κ : Type} {x : IArr (κ → ℝ)}, Inv x → x.irreps = [⟨1, ⟨1, p⟩⟩] → ∃ y, sphericalHarmonics cfg (.ints ls) (.arr x) normalize nrm algorithm = .ok y ∧ Inv y ∧
      y.irreps = (ls.map fun l => ⟨1, ⟨l, p.pow l⟩⟩) ∧ y.zeroFlags = ls.map (fun _ => false) ∧ y.blocks = shBlocks (Y nrm) (ls.map fun l => ⟨1, ⟨l, p.pow l⟩⟩) (fun e => point normalize (pts x e)) := by
    intro κ x hx hxi
    obtain ⟨y, s1, s2, s3, s4, s5⟩ := sh_run (cfg := cfg) (algorithm := algorithm) (nrm := nrm) (f := Y nrm) halg (fun l => Y_spec nrm l) (ho hxi) (p := p)
      (by intro m hm; simp only [List.mem_map] at hm; obtain ⟨l, -, rfl⟩ := hm; rfl) ⟨vec_length hx.coherent hxi, by intro y hy; cases hy; exact hxi⟩ normalize
    refine ⟨y, s1, s2.inv, s3, ?_, s5⟩
    by_cases h0 : Irreps.numIrreps (ls.map fun l => ⟨1, ⟨l, p.pow l⟩⟩) = 0
    · have hl : y.zeroFlags.length = ls.length := by rw [s2.inv.flags.lengths.2, s3, List.length_map]
      rw [hnum ls h0] at hl ⊢
      exact List.eq_nil_of_length_eq_zero hl
    · rw [s4 h0, List.map_map]; rfl
  obtain ⟨y, a1, a2, a3, a4, a5⟩ := hrun h.inv hxi
  obtain ⟨y', b1, b2, b3, b4, b5⟩ := hrun h.inv' (by rw [h.irreps, hxi])
  refine ⟨y, y', a1, b1, Mp.of_blocks a2 b2 (by rw [a3, b3]) (by rw [a4, b4]) ?_⟩
  rw [a5, b5, shBlocks, shBlocks, List.map_map]
  refine List.map_congr_left fun ir _ => ?_
  simp only [Function.comp, pts_pull i h, List.map_ofFn]
  rfl

end MPC
end E3nn

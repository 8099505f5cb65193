import Verif.Props.C100

/-!
# A call of `Transformer` that returns
Two nodes, one edge, two heads; the products are `2x0e` for the keys and `2x0e + 2x1o` for the values.
-/

namespace E3nn.Transf.Example
open E3nn.Transf E3nn.IArr

noncomputable section

def c0 : Transf.Cfg := ⟨[⟨2, ⟨0, .e⟩⟩, ⟨2, ⟨1, .o⟩⟩], [], Real.exp, 2, .component, 1, 1, 1, []⟩
def feats0 : IArr (Fin 2 → ℝ) := ⟨[⟨2, ⟨0, .e⟩⟩], [fun _ => 1, fun _ => 2], none, none⟩
def attr0 : IArr (Fin 1 → ℝ) := ⟨[⟨1, ⟨0, .e⟩⟩, ⟨1, ⟨1, .o⟩⟩], [fun _ => 1, fun _ => 1, fun _ => 2, fun _ => 3], none, none⟩
def P0 : Transf.Params := ⟨fun _ => ⟨[[1, 1]], []⟩, fun q => List.replicate (LinM.entries q) 1, fun _ => ⟨[[1, 1, 1, 1]], []⟩, fun q => List.replicate (LinM.entries q) 1⟩
/-- Whether a call returns. -/
def okB {α : Type} : Except PyErr α → Bool | .ok _ => true | .error _ => false
def xs0 : IArr (Fin 1 → ℝ) := ⟨[⟨2, ⟨0, .e⟩⟩], [fun _ => 1, fun _ => 2], some [false], none⟩
def sc0 : IArr (Fin 1 → ℝ) := ⟨[⟨1, ⟨0, .e⟩⟩], [fun _ => 1], none, none⟩

def wArr (l : List (Fin 1 → ℝ)) : IArr (Fin 1 → ℝ) := ⟨[⟨l.length, ⟨0, .e⟩⟩], l, none, none⟩

def val (k : ℕ) (P : MLP.Params) : List (Fin 1 → ℝ) := match MLP.callCols [] (mlp c0 k) P [fun _ => 1] with | .ok l => l | .error _ => []
def w2 : IArr (Fin 1 → ℝ) := wArr [(val 2 P0.key).getD 0 0, (val 2 P0.key).getD 1 0]
def w4 : IArr (Fin 1 → ℝ) := wArr [(val 4 P0.val).getD 0 0, (val 4 P0.val).getD 1 0, (val 4 P0.val).getD 2 0, (val 4 P0.val).getD 3 0]
def br (keep : Irreps) (w : IArr (Fin 1 → ℝ)) : Except PyErr (IArr (Fin 1 → ℝ)) := do
    let o ← products c0 keep xs0 attr0
    Activ.mulArrays c0.n o w
def call' : Except PyErr (IArr (Fin 2 → ℝ)) := do
  let key ← br feats0.irreps w2
  let t ← TP.tensorProduct (realCtx (Fin 1 → ℝ)) c0.n (some [⟨0, .e⟩]) true xs0 key
  let l ← LinM.callAxis (Fin 1 → ℝ) (linear c0 [⟨c0.heads, ⟨0, .e⟩⟩]) P0.logit t
  if l.array.length ≠ c0.heads then .error .typeError
  else do
    let v ← br c0.out w4
    let v ← weightHeads c0.n c0.heads (fun k e => Real.sqrt (max 0 (alpha (fun _ => (1 : Fin 2)) (fun _ => 1) (l.array.getD k 0) e))) v
    let y ← scatterSum (fun _ => (1 : Fin 2)) v
    LinM.callAxis (Fin 2 → ℝ) (linear c0 c0.out) P0.last y

theorem call'_ok : okB call' = true := by decide +kernel

theorem list2 {α : Type} {d : α} {l : List α} (h : l.length = 2) : [l.getD 0 d, l.getD 1 d] = l := by
  obtain ⟨a, b, rfl⟩ := List.length_eq_two.mp h
  rfl

theorem list4 {α : Type} {d : α} {l : List α} (h : l.length = 4) : [l.getD 0 d, l.getD 1 d, l.getD 2 d, l.getD 3 d] = l := by
  match l, h with
  | [a, b, c, e], _ => rfl

theorem cols (k : ℕ) (hk : k ≠ 0) (P : MLP.Params) (hP : MLP.Shaped (mlp c0 k) 1 P) : ∃ l, MLP.callCols [] (mlp c0 k) P [fun _ : Fin 1 => 1] = .ok l ∧ l.length = k := by
  have hx : IArr.Inv sc0 := (make_noflags (α := Fin 1 → ℝ) (ms := [⟨1, ⟨0, .e⟩⟩]) (a := [fun _ => 1]) (by decide)).2
  obtain ⟨y, y1, y2, y3⟩ := MPC.callAxisM_total [] (mlp c0 k) (x := sc0) hx rfl hP (by
    intro i hi
    have : i = 0 := by simpa [mlp, c0] using hi
    subst this
    simp)
  unfold MLP.callAxis at y1
  rw [if_neg (by decide)] at y1
  cases hl : MLP.callCols [] (mlp c0 k) P [fun _ : Fin 1 => 1] with
  | error e => rw [show sc0.array = [fun _ => 1] from rfl, hl] at y1; cases y1
  | ok l =>
    refine ⟨l, rfl, ?_⟩
    rw [show sc0.array = [fun _ => 1] from rfl, hl] at y1
    obtain ⟨u1, -⟩ := make_noflags (α := Fin 1 → ℝ) (ms := [⟨l.length, ⟨0, .e⟩⟩]) (a := l) (by simp [Irreps.dim, Irrep.dim])
    simp only [IArr.ofArray] at y1
    rw [u1] at y1
    cases y1
    simpa [mlp, c0] using y3

theorem weights_eq (k : ℕ) (hk : k ≠ 0) (P : MLP.Params) (hP : MLP.Shaped (mlp c0 k) 1 P) (o : IArr (Fin 1 → ℝ)) (ho : o.irreps.numIrreps = k) :
    weights c0 P attr0 o = .ok (wArr (val k P)) ∧ (val k P).length = k := by
  obtain ⟨l, l1, l2⟩ := cols k hk P hP
  have hv : val k P = l := by rw [val, l1]
  refine ⟨?_, by rw [hv, l2]⟩
  rw [hv]
  obtain ⟨u1, -⟩ := make_noflags (α := Fin 1 → ℝ) (ms := [⟨l.length, ⟨0, .e⟩⟩]) (a := l) (by simp [Irreps.dim, Irrep.dim])
  have hs : attr0.filter (some (.irs [⟨0, .e⟩])) none none = .ok ⟨[⟨1, ⟨0, .e⟩⟩], [fun _ => 1], some [false], some [some [[fun _ => 1]]]⟩ := rfl
  unfold weights
  rw [hs, ho]
  simp only [bind, Except.bind]
  unfold MLP.callAxis
  rw [if_neg (by decide)]
  simp only
  rw [show c0.pts = [] from rfl, l1]
  simp only [IArr.ofArray]
  exact u1

theorem br_eq (keep : Irreps) (P : MLP.Params) (k : ℕ) (hk : k ≠ 0) (hP : MLP.Shaped (mlp c0 k) 1 P)
    (h : (match products c0 keep xs0 attr0 with | .ok o => o.irreps.numIrreps == k | .error _ => false) = true) : branch c0 keep P xs0 attr0 = br keep (wArr (val k P)) := by
  unfold branch br
  cases ho : products c0 keep xs0 attr0 with
  | error e => rfl
  | ok o =>
    rw [ho] at h
    simp only [bind, Except.bind]
    rw [(weights_eq k hk P hP o (by simpa using h)).1]

theorem key_eq : branch c0 feats0.irreps P0.key xs0 attr0 = br feats0.irreps w2 := by
  have hP : MLP.Shaped (mlp c0 2) 1 P0.key := by
    intro i hi
    have : i = 0 := by simpa [mlp, c0] using hi
    subst this
    simp [MLP.Fits, mlp, c0, P0]
  rw [br_eq feats0.irreps P0.key 2 (by decide) hP (by decide +kernel), w2, list2 (weights_eq 2 (by decide) _ hP xs0 rfl).2]

theorem val_eq : branch c0 c0.out P0.val xs0 attr0 = br c0.out w4 := by
  have hP : MLP.Shaped (mlp c0 4) 1 P0.val := by
    intro i hi
    have : i = 0 := by simpa [mlp, c0] using hi
    subst this
    simp [MLP.Fits, mlp, c0, P0]
  rw [br_eq c0.out P0.val 4 (by decide) hP (by decide +kernel), w4, list4]
  obtain ⟨l, l1, l2⟩ := cols 4 (by decide) _ hP
  rw [val, l1]
  exact l2

theorem call_eq : call c0 P0 (fun _ : Fin 1 => (0 : Fin 2)) (fun _ => 1) (fun _ => 1) attr0 feats0 = call' := by
  have g1 : MPC.gather (fun _ : Fin 1 => (0 : Fin 2)) feats0 = .ok xs0 := rfl
  have g2 : MPC.gather (fun _ : Fin 1 => (1 : Fin 2)) feats0 = .ok xs0 := rfl
  unfold call call'
  rw [g1, g2]
  simp only [bind, Except.bind, logits]
  rw [key_eq, val_eq]
  cases br feats0.irreps w2 with
  | error e => rfl
  | ok key =>
    simp only
    cases TP.tensorProduct (realCtx (Fin 1 → ℝ)) c0.n (some [⟨0, .e⟩]) true xs0 key with
    | error e => rfl
    | ok t =>
      simp only
      cases LinM.callAxis (Fin 1 → ℝ) (linear c0 [⟨c0.heads, ⟨0, .e⟩⟩]) P0.logit t with
      | error e => rfl
      | ok l => rfl

/-- The hypotheses of the theorems of C100 are met: two heads on `0e + 1o` targets, a weight of the edge that is positive. -/
theorem returns : ∃ y, call c0 P0 (fun _ : Fin 1 => (0 : Fin 2)) (fun _ => 1) (fun _ => 1) attr0 feats0 = .ok y ∧ attr0.Coherent ∧ feats0.Coherent ∧ c0.n = .component ∧ c0.heads = 2 := by
  have h := call'_ok
  rw [← call_eq] at h
  have ha : attr0.Coherent := (make_noflags (α := Fin 1 → ℝ) (ms := attr0.irreps) (a := attr0.array) (by decide)).2.coherent
  have hf : feats0.Coherent := (make_noflags (α := Fin 2 → ℝ) (ms := feats0.irreps) (a := feats0.array) (by decide)).2.coherent
  cases hc : call c0 P0 (fun _ : Fin 1 => (0 : Fin 2)) (fun _ => 1) (fun _ => 1) attr0 feats0 with
  | error e => rw [hc] at h; cases h
  | ok y => exact ⟨y, rfl, ha, hf, rfl, rfl⟩

end

end E3nn.Transf.Example

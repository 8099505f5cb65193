import Verif.Lemmas.JaxprAll

/-! The passes at every nesting depth. -/

namespace E3nn.JX

variable {L P C V : Type}

theorem run_length (S : Sem L P C V) (d : ℕ) (s : Jx L P C d) (cs args : List V) : (run S d s cs args).length = nOuts d s := by
  cases d with
  | zero => exact List.length_map _
  | succ d => exact List.length_map _

theorem rdcD_spec (S : Sem L P C V) (dup : C → C → Bool) (hd : ∀ c c', dup c c' = true → S.const c = S.const c') (d : ℕ) (cs : List C) (j : Jx L P C d) (hj : WellFormed S d j) (hl : cs.length = nConsts d j) :
    WellFormed S d (rdcD dup d cs j).2 ∧ (rdcD dup d cs j).1.length = nConsts d (rdcD dup d cs j).2 ∧ nIns d (rdcD dup d cs j).2 = nIns d j ∧ nOuts d (rdcD dup d cs j).2 = nOuts d j ∧
      (rdcD dup d cs j).1.Sublist cs ∧ (rdcD dup d cs j).1.Pairwise (fun c' c => dup c c' = false) ∧
      ∀ args, run S d (rdcD dup d cs j).2 ((rdcD dup d cs j).1.map S.const) args = run S d j (cs.map S.const) args := by
  induction d generalizing cs with
  | zero =>
    obtain ⟨h1, h2, h3, h4, h5, h6, h7⟩ := rdc_spec S (fun e : Empty => e.elim) (fun e : Empty => e.elim) (fun e : Empty => e.elim) (fun e : Empty => e.elim) (fun e : Empty => e.elim) dup (fun _ (e : Empty) => e.elim) hd (fun _ (s : Empty) => s.elim) cs j hj hl
    exact ⟨h1, h2, congrArg List.length h3, h4, h5, h6, h7⟩
  | succ d ih =>
    obtain ⟨h1, h2, h3, h4, h5, h6, h7⟩ := rdc_spec S (run S d) (WellFormed S d) (nConsts d) (nIns d) (nOuts d) dup (rdcD dup d) hd
      (fun cs s hs hc => by
        obtain ⟨a1, a2, a3, a4, a5, a6, a7⟩ := ih cs s hs hc
        exact ⟨a1, a2, a7⟩) cs j hj hl
    exact ⟨h1, h2, congrArg List.length h3, h4, h5, h6, h7⟩

theorem dceD_spec (S : Sem L P C V) (donate : List ℕ → P → P) (d : ℕ) (j : Jx L P C d) (oi : List ℕ) (hj : WellFormed S d j) (hoi : ∀ i ∈ oi, i < nOuts d j) :
    WellFormed S d (dceD donate d j oi).1 ∧ nConsts d (dceD donate d j oi).1 = nConsts d j ∧ nIns d (dceD donate d j oi).1 = (dceD donate d j oi).2.length ∧ nOuts d (dceD donate d j oi).1 = oi.length ∧
      (dceD donate d j oi).2 = ((List.range (nIns d j)).filter fun i => (dceD donate d j oi).2.contains i) ∧
      ∀ cs args, args.length = nIns d j → run S d (dceD donate d j oi).1 cs ((dceD donate d j oi).2.map fun i => args.getD i S.dflt) = oi.map fun i => (run S d j cs args).getD i S.dflt := by
  induction d generalizing oi with
  | zero =>
    obtain ⟨h1, h2, h3, h4, h5, h6⟩ := dce_spec S (fun e : Empty => e.elim) (fun e : Empty => e.elim) (fun e : Empty => e.elim) (fun e : Empty => e.elim) (fun e : Empty => e.elim) donate (fun e : Empty => e.elim) (fun s : Empty => s.elim) (fun s : Empty => s.elim) j oi hj hoi
    exact ⟨h1, congrArg List.length h2, h3, h4, h5, h6⟩
  | succ d ih =>
    obtain ⟨h1, h2, h3, h4, h5, h6⟩ := dce_spec S (run S d) (WellFormed S d) (nConsts d) (nIns d) (nOuts d) donate (dceD donate d) (run_length S d) (fun s oi hs hoi => ih s oi hs hoi) j oi hj hoi
    exact ⟨h1, congrArg List.length h2, h3, h4, h5, h6⟩

theorem rdeD_spec (S : Sem L P C V) (K : KeysAll L P C) (d : ℕ) (j : Jx L P C d) (hj : WellFormed S d j) (hK : KeysSound S K d j) :
    WellFormed S d (rdeD K d j) ∧ nConsts d (rdeD K d j) = nConsts d j ∧ nIns d (rdeD K d j) = nIns d j ∧ nOuts d (rdeD K d j) = nOuts d j ∧ ∀ cs args, run S d (rdeD K d j) cs args = run S d j cs args := by
  induction d with
  | zero =>
    obtain ⟨h1, h2, h3, h4, h5⟩ := rde_spec S (fun e : Empty => e.elim) (fun e : Empty => e.elim) (fun e : Empty => e.elim) (fun e : Empty => e.elim) (fun e : Empty => e.elim) (fun e : Empty => e.elim) K.1 (fun e : Empty => e.elim) (fun s : Empty => s.elim) j hj hK (fun _ _ s _ => s.jaxpr.elim)
    exact ⟨h1, congrArg List.length h2, congrArg List.length h3, h4, h5⟩
  | succ d ih =>
    obtain ⟨h1, h2, h3, h4, h5⟩ := rde_spec S (run S d) (WellFormed S d) (KeysSound S K d) (nConsts d) (nIns d) (nOuts d) (K.2 d) (rdeD K d) (fun s hs hk => ih s hs hk) j hj hK.1 hK.2
    exact ⟨h1, congrArg List.length h2, congrArg List.length h3, h4, h5⟩

end E3nn.JX

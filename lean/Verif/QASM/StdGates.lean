/-
The standard gates (`STANDARD_GATES`, include/mqt-core/qasm3/StdGates.hpp 49-122) and the multi-controlled gates
(`getMcGateDefinition`, src/qasm3/Importer.cpp 698-738).
-/
import Verif.QASM.GateCall
import Std.Data.String.ToNat

set_option autoImplicit false

namespace MQT.QASM.GateCall

open MQT.IR

/-- `STANDARD_GATES`: the name, the numbers of controls, targets and parameters, and the type. -/
def stdTable : List (String × ℕ × ℕ × ℕ × OpType) :=
  [("gphase", 0, 0, 1, .gphase), ("U", 0, 1, 3, .u),
   ("p", 0, 1, 1, .p), ("u1", 0, 1, 1, .p), ("phase", 0, 1, 1, .p), ("cphase", 1, 1, 1, .p), ("cp", 1, 1, 1, .p),
   ("id", 0, 1, 0, .i), ("u2", 0, 1, 2, .u2), ("u3", 0, 1, 3, .u), ("u", 0, 1, 3, .u),
   ("x", 0, 1, 0, .x), ("cx", 1, 1, 0, .x), ("CX", 1, 1, 0, .x), ("ccx", 2, 1, 0, .x), ("c3x", 3, 1, 0, .x), ("c4x", 4, 1, 0, .x),
   ("rx", 0, 1, 1, .rx), ("crx", 1, 1, 1, .rx), ("y", 0, 1, 0, .y), ("cy", 1, 1, 0, .y), ("ry", 0, 1, 1, .ry), ("cry", 1, 1, 1, .ry),
   ("z", 0, 1, 0, .z), ("cz", 1, 1, 0, .z), ("rz", 0, 1, 1, .rz), ("crz", 1, 1, 1, .rz), ("h", 0, 1, 0, .h), ("ch", 1, 1, 0, .h),
   ("s", 0, 1, 0, .s), ("sdg", 0, 1, 0, .sdg), ("t", 0, 1, 0, .t), ("tdg", 0, 1, 0, .tdg), ("sx", 0, 1, 0, .sx), ("sxdg", 0, 1, 0, .sxdg),
   ("c3sqrtx", 3, 1, 0, .sxdg), ("swap", 0, 2, 0, .swap), ("cswap", 1, 2, 0, .swap), ("iswap", 0, 2, 0, .iswap),
   ("iswapdg", 0, 2, 0, .iswapdg), ("rxx", 0, 2, 1, .rxx), ("ryy", 0, 2, 1, .ryy), ("rzz", 0, 2, 1, .rzz), ("rzx", 0, 2, 1, .rzx),
   ("dcx", 0, 2, 0, .dcx), ("ecr", 0, 2, 0, .ecr), ("xx_minus_yy", 0, 2, 2, .xxminusyy), ("xx_plus_yy", 0, 2, 2, .xxplusyy)]

variable {E : Type}

/-- The gates before any is declared. -/
def stdGates : Gates E := fun name => (stdTable.lookup name).map fun i => .std i.1 i.2.1 i.2.2.1 i.2.2.2

theorem stdTable_valid : ∀ i ∈ stdTable, ValidStd i.2.2.1 i.2.2.2.1 i.2.2.2.2 := by
  simp only [stdTable, List.forall_mem_cons, List.not_mem_nil, false_imp_iff, implies_true, and_true]
  repeat' apply And.intro
  all_goals
    intro vals cs ts hv ht
    rcases vals with _ | ⟨a, _ | ⟨b, _ | ⟨c, _ | ⟨d, vals⟩⟩⟩⟩ <;> simp only [List.length_cons, List.length_nil] at hv <;>
      first
      | (exfalso; omega)
      | (rcases ts with _ | ⟨q, _ | ⟨r, _ | ⟨z, ts⟩⟩⟩ <;> simp only [List.length_cons, List.length_nil] at ht <;>
          first
          | (exfalso; omega)
          | exact ⟨_, rfl⟩)

/-! ### Operands that are single qubits -/

/-- The operands are these qubits. -/
def Singles (regs : List Reg) (operands : List Arg) (qs : List ℕ) : Prop :=
  List.Forall₂ (fun a q => translateArg regs a = .ok [q]) operands qs

theorem collect_singles {regs : List Reg} {as : List Arg} {qs : List ℕ} (h : Singles regs as qs) (w : ℕ) :
    collect regs as w = .ok (qs.map fun q => (q, false), w) := by
  induction h with
  | nil => rfl
  | cons h _ ih => simp only [collect, h, Res.bind, ih, List.map_cons]

theorem map_pick_singles (qs : List ℕ) (j : ℕ) : (qs.map fun q => (q, false)).map (pick j) = qs := by
  rw [List.map_map, show (pick j ∘ fun q => (q, false)) = id from funext fun q => by simp [pick], List.map_id]

/-- A call without broadcasting, of a gate without controls of its own, with no modifiers or only `ctrl(k)`. -/
theorem evalCall_singles {X : Exprs E} {G : Gates E} {compat : Bool} {n : ℕ} {regs : List Reg} {ρ : Vals} {name : String} {k : ℕ}
    {args : List E} {operands : List Arg} {ms : List Mod} (hms : ms = [.ctrl true k] ∨ ms = [] ∧ k = 0) {g : Gate E} {vals : List ℝ}
    {qs : List ℕ} (hl : lookup X G compat name operands.length = some (g, 0)) (h0 : g.nControls = 0)
    (hv : args.mapM (X.ev ρ) = some vals) (hvl : vals.length = g.nParams) (hs : Singles regs operands qs) (hnd : qs.Nodup)
    (hlen : qs.length = k + g.nTargets) (hk : k < 2 ^ 64) :
    evalCall X G compat (n + 1) regs ρ ⟨name, ms, args, operands⟩ =
      applyGate (evalCall X G compat n) ρ g (qs.drop k) ((qs.take k).map fun q => (q, true)) vals false := by
  have hol : operands.length = qs.length := hs.length_eq
  have hm : modLoop operands ms 0 [] false = .ok (k, (operands.take k).map fun a => (a, true), false) := by
    rcases hms with rfl | ⟨rfl, rfl⟩
    · have h1 : ¬ operands.length < (k + 0) % 2 ^ 64 := by rw [Nat.mod_eq_of_lt (by omega)]; omega
      simp only [modLoop]
      rw [if_neg h1, if_neg (by omega)]
      simp
    · simp [modLoop]
  have hargs : args.length = vals.length := (mapM_length hv).symm
  rw [evalCall]
  simp only [hl, h0, Nat.add_zero, List.take_zero, List.map_nil]
  rw [if_neg (by omega), if_neg (by omega), hm]
  simp only [Res.bind, List.length_drop]
  rw [if_neg (by omega), hv]
  simp only
  have hd : Singles regs (operands.drop k) (qs.drop k) := List.forall₂_drop k hs
  have ht : Singles regs (operands.take k) (qs.take k) := List.forall₂_take k hs
  have hf : ((operands.take k).map fun a => (a, true)).map Prod.fst = operands.take k := by
    rw [List.map_map, show (Prod.fst ∘ fun a : Arg => (a, true)) = id from rfl, List.map_id]
  rw [collect_singles hd, hf]
  simp only [collect_singles ht, instances, if_true, instanceOf, map_pick_singles]
  rw [if_pos (by rw [List.take_append_drop]; exact hnd)]
  congr 1
  apply List.ext_getElem
  · simp; omega
  · intro i h1 h2
    simp

/-! ### The multi-controlled gates -/

theorem mcQubit_inj {i j : ℕ} (h : mcQubit i = mcQubit j) : i = j := by
  unfold mcQubit at h
  have : toString i = toString j := by
    have := congrArg String.toList h
    simp only [String.toList_append, List.append_cancel_left_eq] at this
    exact String.toList_inj.1 this
  exact Nat.repr_injective this

theorem find_mc (m : ℕ) (qs : List ℕ) (s i : ℕ) (hi : i < m) (hl : qs.length = m) :
    (bodyRegs ((List.range' s m).map mcQubit) qs).find? (fun r => r.name = mcQubit (s + i)) = some ⟨qs[i]'(by omega), 1, mcQubit (s + i)⟩ := by
  induction m generalizing qs s i with
  | zero => omega
  | succ m ih =>
    obtain ⟨q, qs, rfl⟩ : ∃ q r, qs = q :: r := List.exists_cons_of_length_eq_add_one hl
    rw [List.range'_succ, List.map_cons, bodyRegs, List.zipWith_cons_cons, List.find?_cons]
    rcases i with _ | i
    · simp
    · rw [show decide ((⟨q, 1, mcQubit s⟩ : Reg).name = mcQubit (s + (i + 1))) = false by
        simp only [decide_eq_false_iff_not]
        intro h
        have := mcQubit_inj h
        omega]
      have := ih qs (s + 1) i (by omega) (by simpa using hl)
      rw [show s + 1 + i = s + (i + 1) by omega] at this
      simpa [bodyRegs] using this

theorem singles_mc {qs : List ℕ} {m : ℕ} (hm : m ≤ qs.length) :
    Singles (bodyRegs ((List.range qs.length).map mcQubit) qs) ((List.range m).map fun i => Arg.op (.reg (mcQubit i))) (qs.take m) := by
  unfold Singles
  rw [List.forall₂_iff_get]
  refine ⟨by simp; omega, fun i h1 h2 => ?_⟩
  simp only [List.get_eq_getElem, List.getElem_map, List.getElem_range, List.getElem_take, translateArg, translate]
  simp only [List.length_map, List.length_range] at h1
  have := find_mc qs.length qs 0 i (by omega) rfl
  rw [← List.range_eq_range'] at this
  simp only [Nat.zero_add] at this
  rw [this]
  simp

/-- The ancillas a multi-controlled X with `k` controls takes. -/
def mcAncillas (name : String) (k : ℕ) : ℕ :=
  if name = "mcx_vchain" then k - 2 else if name = "mcx_recursive" ∧ 5 ≤ k then 1 else 0

theorem mcTargets_eq {name : String} {k : ℕ} (hv : name = "mcx_vchain" → 2 ≤ k) : mcTargets name (k + 1 + mcAncillas name k) = k + 1 := by
  unfold mcTargets mcAncillas
  split_ifs with h1 h2 h3 h3 <;> simp_all <;> omega

theorem evalCall_mc {X : Exprs E} {G : Gates E} {compat : Bool} {name : String}
    (hname : name ∈ ["mcx", "mcx_gray", "mcx_vchain", "mcx_recursive", "mcphase"]) (hG : G name = none) {type : OpType}
    (hinner : G (if name = "mcphase" then "p" else "x") = some (.std 0 1 (if name = "mcphase" then 1 else 0) type))
    {regs : List Reg} {ρ : Vals} {args : List E} {vals : List ℝ} (hv : args.mapM (X.ev ρ) = some vals)
    (hvl : vals.length = if name = "mcphase" then 1 else 0) {operands : List Arg} {cs anc : List ℕ} {t : ℕ}
    (hs : Singles regs operands (cs ++ t :: anc)) (hnd : (cs ++ t :: anc).Nodup) (hanc : anc.length = mcAncillas name cs.length)
    (hvc : name = "mcx_vchain" → 2 ≤ cs.length) (hlt : cs.length < 2 ^ 64) (n : ℕ) :
    evalCall X G compat (n + 2) regs ρ ⟨name, [], args, operands⟩ =
      .ok (.std ⟨type, vals, (cs.map fun q => (q, true)).toFinset, [t]⟩) := by
  have hol : operands.length = cs.length + 1 + mcAncillas name cs.length := by
    rw [hs.length_eq]; simp; omega
  have hT : mcTargets name operands.length = cs.length + 1 := by rw [hol]; exact mcTargets_eq hvc
  have hlk : lookup X G compat name operands.length = some (mcGate X name operands.length, 0) := by
    simp [lookup, hG, hname]
  have hps : (mcGate X name operands.length).nParams = if name = "mcphase" then 1 else 0 := by
    simp only [mcGate, Gate.nParams]; split_ifs <;> rfl
  have hnT : (mcGate X name operands.length).nTargets = operands.length := by simp [mcGate, Gate.nTargets]
  rw [evalCall_singles (k := 0) (.inr ⟨rfl, rfl⟩) hlk rfl hv (by rw [hps, hvl]) hs hnd (by rw [hnT, hs.length_eq]; omega) (by omega)]
  simp only [List.drop_zero, List.take_zero, List.map_nil]
  have hmin : min (cs.length + 1) operands.length = cs.length + 1 := by omega
  have hqs : operands.length = (cs ++ t :: anc).length := hs.length_eq
  have hsing := singles_mc (qs := cs ++ t :: anc) (m := cs.length + 1) (by simp)
  rw [← hqs] at hsing
  have htake : (cs ++ t :: anc).take (cs.length + 1) = cs ++ [t] := by
    rw [List.take_append]; simp
  rw [htake] at hsing
  have hval : (if name = "mcphase" then [X.ident "x"] else []).mapM (X.ev (bindParams (if name = "mcphase" then ["x"] else []) vals ρ)) =
      some vals := by
    split_ifs at hvl ⊢ with hp
    · obtain ⟨v, rfl⟩ := List.length_eq_one_iff.1 hvl
      simp [X.ev_ident, bindParams]
    · rw [List.length_eq_zero_iff.1 hvl]; rfl
  have hnd' : (cs ++ [t]).Nodup := hnd.sublist (by simp)
  have hin := evalCall_singles (X := X) (G := G) (compat := compat) (n := n) (k := cs.length) (ms := [.ctrl true cs.length])
    (name := if name = "mcphase" then "p" else "x")
    (g := .std 0 1 (if name = "mcphase" then 1 else 0) type) (.inl rfl) (by rw [lookup, hinner]) rfl hval
    hvl hsing hnd' (by simp [Gate.nTargets]) hlt
  have hany : ((List.range (cs.length + 1)).map fun i => Arg.op (.reg (mcQubit i))).any
      (indexedFormal ((List.range operands.length).map mcQubit)) = false := by
    simp [List.any_eq_false, indexedFormal]
  simp only [applyGate, mcGate, runBody, hmin, hT, hany, Nat.add_one_ne_zero, if_false, Nat.add_sub_cancel, hin, Bool.false_eq_true]
  have hd : (cs ++ [t]).drop cs.length = [t] := by simp
  have ht : (cs ++ [t]).take cs.length = cs := by simp
  simp only [invertIf, Bool.false_eq_true, if_false, Res.bind, hd, ht, List.toFinset_nil]
  rw [UOp.addControls, if_pos (by simp)]
  simp [ofOption, UOp.withControls, unwrap]

end MQT.QASM.GateCall

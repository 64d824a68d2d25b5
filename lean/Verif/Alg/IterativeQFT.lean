/-
The iterative quantum Fourier transform (`src/algorithms/QFT.cpp` 69-109).
-/
import Verif.Alg.QFT
import Verif.Alg.BV

set_option autoImplicit false

noncomputable section

open Function (update)

namespace MQT.Alg

open MQT.IR MQT.Opt MQT.Sim MQT.DD

/-- `classicControlled(op, target, cBit, 1, Eq, params)` (QuantumComputation.cpp 1616-1642). -/
def ccGate (ty : OpType) (q b : ℕ) (ps : List ℝ := []) : Op ℝ :=
  .classic (fun m => m b == true) (gate ty q ps)

/-- The rotation controlled by the bit measured in round `j - 1` (78-88). -/
def iqftRotation (nq i j : ℕ) : Op ℝ :=
  let d := nq - j
  if j = i then ccGate .s 0 d
  else if j = i - 1 then ccGate .t 0 d
  else ccGate .p 0 d [Real.pi / 2 ^ (i - j + 1)]

/-- `createIterativeQFT` (69-109): the operations. -/
def createIterativeQFT (nq : ℕ) : List (Op ℝ) :=
  (List.range nq).flatMap fun i =>
    (List.range i).map (fun j => iqftRotation nq i (j + 1)) ++ [gate .h 0, measG 0 (nq - 1 - i)] ++
      (if i < nq - 1 then [.reset [0]] else [])

/-- Amplitude `a` on the one-qubit basis state `b`. -/
def oneS (a : ℂ) (b : Bool) : State := fun x => if x 0 = b then a else 0

theorem oneS_zero (b : Bool) : oneS 0 b = fun _ => 0 := by funext x; simp [oneS]

theorem exec_iqftRotation (nq i j : ℕ) (a : ℂ) (mem orc : ℕ → Bool) :
    exec (iqftRotation nq i j) ⟨oneS a false, mem, orc⟩ = some ⟨oneS a false, mem, orc⟩ := by
  have key : ∀ (ty : OpType) (ps : List ℝ) (w : ℂ) (d : ℕ), ty.isSingleQubitGate = true →
      gate1 ty ps = some (mat1 1 0 0 w) →
      exec (ccGate ty 0 d ps) ⟨oneS a false, mem, orc⟩ = some ⟨oneS a false, mem, orc⟩ := by
    intro ty ps w d h1 h2
    unfold ccGate
    rw [exec]
    split_ifs
    · have hA : Acts (gate ty 0 ps) (app1 (mat1 1 0 0 w) 0) := by
        apply acts_std
        rw [StdOp.denote_single_of (q := 0) h1 rfl h2]
        congr 1
      rw [hA]
      simp only [Cfg.mapSt]
      congr 2
      funext x
      unfold app1 oneS
      rw [Fintype.sum_bool]
      cases x 0 <;> simp [mat1]
    · rfl
  unfold iqftRotation
  split_ifs
  · exact key _ _ ⟨0, 1⟩ _ rfl rfl
  · exact key _ _ ⟨r2, r2⟩ _ rfl rfl
  · exact key _ _ ⟨_, _⟩ _ rfl rfl

/-- A rotation on any state of the qubit: multiply the amplitude of `|1⟩` if the bit is set. -/
theorem exec_iqftRotation_any (nq i j : ℕ) (hj : j < i) (v : Bool → ℂ) (mem orc : ℕ → Bool) :
    exec (iqftRotation nq i (j + 1)) ⟨fun x => v (x 0), mem, orc⟩
      = some ⟨fun x => (if x 0 then cis (bitv (mem (nq - (j + 1))) * (Real.pi / 2 ^ (i - j))) else 1) * v (x 0),
          mem, orc⟩ := by
  have key : ∀ (ty : OpType) (ps : List ℝ) (θ : ℝ), ty.isSingleQubitGate = true →
      gate1 ty ps = some (mat1 1 0 0 (cis θ)) →
      exec (ccGate ty 0 (nq - (j + 1)) ps) ⟨fun x => v (x 0), mem, orc⟩
        = some ⟨fun x => (if x 0 then cis (bitv (mem (nq - (j + 1))) * θ) else 1) * v (x 0), mem, orc⟩ := by
    intro ty ps θ h1 h2
    unfold ccGate
    rw [exec]
    cases hm : mem (nq - (j + 1))
    · simp [bitv, cis_zero, hm]
    · simp only [hm, beq_self_eq_true, if_true]
      have hA : Acts (gate ty 0 ps) (app1 (mat1 1 0 0 (cis θ)) 0) := by
        apply acts_std
        rw [StdOp.denote_single_of (q := 0) h1 rfl h2]
        congr 1
      rw [hA]
      simp only [Cfg.mapSt]
      congr 2
      funext x
      unfold app1
      rw [Fintype.sum_bool]
      simp only [Function.update_self]
      cases x 0 <;> simp [mat1, bitv]
  unfold iqftRotation
  simp only
  by_cases h1 : j + 1 = i
  · rw [if_pos h1, show i - j = 1 by omega, pow_one]
    exact key _ _ _ rfl (by rw [cis_half]; rfl)
  · by_cases h2 : j + 1 = i - 1
    · rw [if_neg h1, if_pos h2, show i - j = 2 by omega, show (2 : ℝ) ^ 2 = 4 by norm_num]
      exact key _ _ _ rfl (by rw [cis_quarter]; rfl)
    · rw [if_neg h1, if_neg h2, show i - (j + 1) + 1 = i - j by omega]
      exact key _ _ _ rfl (by rw [← cis_eq]; rfl)

/-- All rotations of round `i`, on any state of the qubit. -/
theorem iqft_rotations (nq i m : ℕ) (hm : m ≤ i) (v : Bool → ℂ) (mem orc : ℕ → Bool) :
    run ((List.range m).map (fun j => iqftRotation nq i (j + 1))) ⟨fun x => v (x 0), mem, orc⟩
      = some ⟨fun x => (if x 0 then
          cis (∑ j ∈ Finset.range m, bitv (mem (nq - 1 - j)) * (Real.pi / 2 ^ (i - j))) else 1) * v (x 0),
          mem, orc⟩ := by
  induction m with
  | zero => simp [run_nil, cis_zero]
  | succ m ih =>
    rw [List.range_succ, List.map_append, run_append, ih (by omega), Option.bind_some, List.map_cons,
      List.map_nil, run_cons]
    have h := exec_iqftRotation_any nq i m (by omega) (fun b => (if b then
      cis (∑ j ∈ Finset.range m, bitv (mem (nq - 1 - j)) * (Real.pi / 2 ^ (i - j))) else 1) * v b) mem orc
    rw [h, Option.bind_some, run_nil, Finset.sum_range_succ, cis_add, show nq - (m + 1) = nq - 1 - m by omega]
    congr 2
    funext x
    cases x 0
    · simp
    · simp only [if_true]; ring

theorem run_fixed {l : List (Op ℝ)} {c : Cfg} (h : ∀ o ∈ l, exec o c = some c) : run l c = some c := by
  induction l with
  | nil => exact run_nil c
  | cons o l ih =>
    rw [run_cons, h o (by simp), Option.bind_some]
    exact ih fun o' ho => h o' (List.mem_cons_of_mem _ ho)

/-- One round without the reset. -/
theorem iqft_round (n i : ℕ) (a : ℂ) (mem orc : ℕ → Bool) :
    run ((List.range i).map (fun j => iqftRotation n i (j + 1)) ++ [gate .h 0, measG 0 (n - 1 - i)])
      ⟨oneS a false, mem, orc⟩
      = some ⟨oneS (a * r2) (orc 0), update mem (n - 1 - i) (orc 0), fun k => orc (k + 1)⟩ := by
  rw [run_append, run_fixed, Option.bind_some, run_cons, acts_h, Option.bind_some, run_cons, measG, exec]
  · simp only [Option.bind_some, List.zip_cons_cons, List.zip_nil_right, List.foldl_cons, List.foldl_nil,
      run_nil, Cfg.mapSt, measure1]
    congr 2
    funext x
    rw [proj_apply, hadF_apply]
    simp [oneS]
    split_ifs <;> ring
  · intro o ho
    simp only [List.mem_map] at ho
    obtain ⟨j, -, rfl⟩ := ho
    exact exec_iqftRotation n i _ a mem orc

theorem iqft_reset (a : ℂ) (b : Bool) (mem orc : ℕ → Bool) :
    run [.reset [0]] ⟨oneS a b, mem, orc⟩
      = some ⟨oneS (if orc 0 = b then a else 0) false, mem, fun k => orc (k + 1)⟩ := by
  rw [run_cons, exec]
  simp only [Option.bind_some, List.foldl_cons, List.foldl_nil, run_nil, reset1]
  congr 2
  funext x
  cases ho : orc 0
  · simp only [Bool.false_eq_true, if_false]
    rw [proj_apply]
    cases b <;> cases hx : x 0 <;> simp [oneS, hx]
  · simp only [if_true]
    rw [flip_apply, proj_apply]
    cases b <;> cases hx : x 0 <;> simp [oneS, flipB, hx]

theorem iqft_rounds (n k : ℕ) (hk : k < n) (mem orc : ℕ → Bool) :
    ∃ mem', run ((List.range k).flatMap fun i =>
        (List.range i).map (fun j => iqftRotation n i (j + 1)) ++ [gate .h 0, measG 0 (n - 1 - i)] ++
          (if i < n - 1 then [.reset [0]] else [])) ⟨oneS 1 false, mem, orc⟩
      = some ⟨oneS (if ∀ i < k, orc (2 * i + 1) = orc (2 * i) then (r2 : ℂ) ^ k else 0) false, mem',
          fun j => orc (j + 2 * k)⟩ ∧ ∀ i < k, mem' (n - 1 - i) = orc (2 * i) := by
  induction k with
  | zero =>
    refine ⟨mem, ?_, fun i hi => absurd hi (by omega)⟩
    rw [List.range_zero, List.flatMap_nil, run_nil]
    simp
  | succ k ih =>
    obtain ⟨mem', h1, h2⟩ := ih (by omega)
    refine ⟨update mem' (n - 1 - k) (orc (2 * k)), ?_, fun i hi => ?_⟩
    · rw [List.range_succ, List.flatMap_append, run_append, h1, Option.bind_some, List.flatMap_cons,
        List.flatMap_nil, List.append_nil, run_append, iqft_round, Option.bind_some,
        if_pos (show k < n - 1 by omega), iqft_reset]
      have e : (∀ i < k + 1, orc (2 * i + 1) = orc (2 * i)) ↔
          (∀ i < k, orc (2 * i + 1) = orc (2 * i)) ∧ orc (0 + 1 + 2 * k) = orc (0 + 2 * k) := by
        rw [show 0 + 1 + 2 * k = 2 * k + 1 by omega, Nat.zero_add]
        constructor
        · intro h; exact ⟨fun i hi => h i (by omega), h k (by omega)⟩
        · rintro ⟨h, h'⟩ i hi
          by_cases e : i = k
          · rw [e]; exact h'
          · exact h i (by omega)
      congr 2
      · congr 1
        by_cases ha : ∀ i < k, orc (2 * i + 1) = orc (2 * i) <;>
          by_cases hb : orc (0 + 1 + 2 * k) = orc (0 + 2 * k)
        · rw [if_pos hb, if_pos ha, if_pos (e.2 ⟨ha, hb⟩), pow_succ]
        · rw [if_neg hb, if_neg (fun h => hb (e.1 h).2)]
        · rw [if_pos hb, if_neg ha, if_neg (fun h => ha (e.1 h).1), zero_mul]
        · rw [if_neg hb, if_neg (fun h => hb (e.1 h).2)]
      · rw [Nat.zero_add]
      · funext j; congr 1; omega
    · by_cases e : i = k
      · rw [e, Function.update_self]
      · rw [Function.update_of_ne (by omega)]; exact h2 i (by omega)

theorem iqft_spec (n : ℕ) (hn : 0 < n) (mem orc : ℕ → Bool) :
    ∃ c', run (createIterativeQFT n) ⟨ket0 1, mem, orc⟩ = some c' ∧
      (∀ i < n, c'.mem (n - 1 - i) = orc (2 * i)) ∧
      ∀ x : Bits, c'.st x = if (∀ i < n - 1, orc (2 * i + 1) = orc (2 * i)) ∧ x 0 = orc (2 * (n - 1))
        then (r2 : ℂ) ^ n else 0 := by
  obtain ⟨m, rfl⟩ : ∃ m, n = m + 1 := ⟨n - 1, by omega⟩
  obtain ⟨mem', h1, h2⟩ := iqft_rounds (m + 1) m (by omega) mem orc
  have hk : (ket0 1 : State) = oneS 1 false := by
    funext x
    unfold ket0 oneS
    apply if_congr _ rfl rfl
    exact ⟨fun h => h 0 (by omega), fun h q hq => by rw [show q = 0 by omega]; exact h⟩
  unfold createIterativeQFT
  rw [hk, List.range_succ, List.flatMap_append, run_append, h1, Option.bind_some, List.flatMap_cons,
    List.flatMap_nil, List.append_nil, run_append, iqft_round, Option.bind_some,
    if_neg (show ¬ m < m + 1 - 1 by omega), run_nil]
  refine ⟨_, rfl, fun i hi => ?_, fun x => ?_⟩
  · show update mem' (m + 1 - 1 - m) (orc (0 + 2 * m)) (m + 1 - 1 - i) = _
    by_cases e : i = m
    · subst e
      rw [Function.update_self, Nat.zero_add]
    · rw [Function.update_of_ne (by omega)]; exact h2 i (by omega)
  · simp only [oneS, Nat.add_sub_cancel, Nat.zero_add]
    by_cases h : x 0 = orc (2 * m)
    · rw [if_pos h]
      by_cases h' : ∀ i < m, orc (2 * i + 1) = orc (2 * i)
      · rw [if_pos h', if_pos ⟨h', h⟩, pow_succ]
      · rw [if_neg h', if_neg (fun k => h' k.1), zero_mul]
    · rw [if_neg h, if_neg (fun k => h k.2)]

end MQT.Alg

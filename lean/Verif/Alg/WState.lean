/-
The W-state circuit (`src/algorithms/WState.cpp`).
-/
import Verif.Alg.Product
import Mathlib.Analysis.SpecialFunctions.Trigonometric.Inverse

set_option autoImplicit false

noncomputable section

open Function (update)

namespace MQT.Alg

open MQT.IR MQT.Opt MQT.Sim

/-- The angle of `fGate` (23). -/
def wAngle (k n : ℕ) : ℝ := Real.arccos (√(1 / ((k - n + 1 : ℕ) : ℝ)))

/-- `fGate` (21-27). -/
def fGate (i j k n : ℕ) : List (Op ℝ) :=
  [gate .ry j [-wAngle k n], cgate .z i j, gate .ry j [wAngle k n]]

/-- `createWState` (30-47): the operations.  For zero qubits `nq - 1` wraps around and the range check
of `x` throws. -/
def createWState (nq : ℕ) : Res (List (Op ℝ)) :=
  if nq = 0 then .throw
  else .ok ([gate .x (nq - 1)] ++
    (List.range (nq - 1)).flatMap (fun m => fGate (nq - (m + 1)) (nq - (m + 1) - 1) nq (m + 1)) ++
    (List.range (nq - 1)).map (fun l => cgate .x (nq - 1 - l - 1) (nq - 1 - l)))

/-! ### Proofs -/

theorem acts_ry (q : ℕ) (θ : ℝ) : Acts (gate .ry q [θ]) (app1 (ryMat θ) q) := by
  apply acts_std
  rw [StdOp.denote_single_of (q := q) (M := ryMat θ) rfl rfl rfl]
  congr 1

/-- The combined effect of the three gates. -/
theorem fGate_spec {i j k n : ℕ} (hij : i ≠ j) : ∃ f, ActsL (fGate i j k n) f ∧
    ∀ (ψ : State) (x : Bits), f ψ x = if x i then
      (if x j then (Real.sin (wAngle k n) : ℂ) * ψ (update x j false)
          - Real.cos (wAngle k n) * ψ (update x j true)
        else (Real.cos (wAngle k n) : ℂ) * ψ (update x j false)
          + Real.sin (wAngle k n) * ψ (update x j true))
      else ψ x := by
  refine ⟨_, actsL_cons (acts_ry j _) (actsL_cons (acts_cz i j) (actsL_singleton (acts_ry j _))), ?_⟩
  intro ψ x
  generalize wAngle k n = θ
  obtain ⟨h, rfl⟩ : ∃ h, θ = 2 * h := ⟨θ / 2, by ring⟩
  have hc : Real.cos (2 * h) = Real.cos h ^ 2 - Real.sin h ^ 2 := by
    rw [Real.cos_two_mul, Real.sin_sq]; ring
  have hs : Real.sin (2 * h) = 2 * Real.sin h * Real.cos h := Real.sin_two_mul h
  have h1 : (Real.sin h : ℂ) ^ 2 + (Real.cos h : ℂ) ^ 2 = 1 := by
    rw [← Complex.ofReal_pow, ← Complex.ofReal_pow, ← Complex.ofReal_add, Real.sin_sq_add_cos_sq,
      Complex.ofReal_one]
  have e1 : 2 * h / 2 = h := by ring
  have e2 : -(2 * h) / 2 = -h := by ring
  have mk : ∀ r : ℝ, (⟨r, 0⟩ : ℂ) = (r : ℂ) := fun r => rfl
  have ui : ∀ b, update x j b i = x i := fun b => Function.update_of_ne hij _ _
  simp only [app1, Fintype.sum_bool, cphF, ryMat, e1, e2, Real.cos_neg, Real.sin_neg, mk, ui,
    Function.update_self, Function.update_idem, cis_pi, hc, hs]
  simp only [Complex.ofReal_sub, Complex.ofReal_mul, Complex.ofReal_pow, Complex.ofReal_neg]
  generalize (Real.sin h : ℂ) = sn at h1 ⊢
  generalize (Real.cos h : ℂ) = cn at h1 ⊢
  cases hi : x i
  · cases hj : x j
    · have hx : update x j false = x := by rw [← hj, Function.update_eq_self]
      simp [mat1, hx]
      linear_combination (ψ x) * h1
    · have hx : update x j true = x := by rw [← hj, Function.update_eq_self]
      simp [mat1, hx]
      linear_combination (ψ x) * h1
  · cases hj : x j
    · simp [mat1]; ring
    · simp [mat1]; ring

/-- The basis state with the first `n` bits from `b`. -/
def ketB (n : ℕ) (b : Bits) : State := fun x => if ∀ q < n, x q = b q then 1 else 0

theorem ketB_prod (n : ℕ) (b : Bits) : ketB n b = prodS n (fun q => basisV (b q)) := by
  funext x; rw [prodS_basis]; rfl

/-- Bits `p, …, n-1` set. -/
def stair (p : ℕ) : Bits := fun q => decide (p ≤ q)

/-- Bit `p` set. -/
def unitB (p : ℕ) : Bits := fun q => decide (q = p)

theorem rest_zero {n i j : ℕ} (hi : i < n) (hij : i ≠ j) {b x : Bits} (h : x i ≠ b i) :
    ∏ q ∈ (Finset.range n).erase j, basisV (b q) (x q) = 0 := by
  refine Finset.prod_eq_zero (i := i) (Finset.mem_erase.2 ⟨hij, Finset.mem_range.2 hi⟩) ?_
  unfold basisV
  rw [if_neg h]

theorem cos_wAngle (k n : ℕ) : Real.cos (wAngle k n) = √(1 / ((k - n + 1 : ℕ) : ℝ)) := by
  unfold wAngle
  have h0 := Real.sqrt_nonneg (1 / ((k - n + 1 : ℕ) : ℝ))
  apply Real.cos_arccos
  · linarith
  · rw [Real.sqrt_le_one, div_le_one (by positivity)]
    push_cast
    have : (0 : ℝ) ≤ ((k - n : ℕ) : ℝ) := Nat.cast_nonneg _
    linarith

theorem sin_wAngle (k n : ℕ) :
    Real.sin (wAngle k n) = √(((k - n : ℕ) : ℝ) / ((k - n + 1 : ℕ) : ℝ)) := by
  unfold wAngle
  rw [Real.sin_arccos, Real.sq_sqrt (by positivity)]
  congr 1
  push_cast
  have : ((k - n : ℕ) : ℝ) + 1 ≠ 0 := by positivity
  field_simp
  ring

/-- The state when the lowest qubit that may be set is `t`. -/
def wMid (n t : ℕ) : State := fun x =>
  ∑ p ∈ Finset.Ico t n, (if p = t then (√((t + 1 : ℕ) / (n : ℝ)) : ℂ) else (√(1 / (n : ℝ)) : ℂ)) *
    ketB n (stair p) x

theorem wMid_start {n : ℕ} (hn : 0 < n) : wMid n (n - 1) = pull (flipB (n - 1)) (ket0 n) := by
  rw [ket0_prod, flip_prod (by omega)]
  funext x
  unfold wMid
  rw [show Finset.Ico (n - 1) n = {n - 1} by ext q; simp; omega, Finset.sum_singleton, if_pos rfl]
  have : ((n - 1 + 1 : ℕ) / (n : ℝ)) = 1 := by
    rw [Nat.sub_add_cancel hn, div_self (by positivity)]
  rw [this, Real.sqrt_one, Complex.ofReal_one, one_mul, ketB_prod]
  apply congrFun
  apply prodS_congr
  intro q hq
  by_cases h : q = n - 1
  · subst h
    rw [Function.update_self]
    funext b
    cases b <;> simp [basisV, stair]
  · rw [Function.update_of_ne h]
    have : stair (n - 1) q = false := by unfold stair; simp; omega
    rw [this]

theorem wMid_step {n t : ℕ} (ht : t + 1 < n) {f : State → State}
    (hf : ∀ (ψ : State) (x : Bits), f ψ x = if x (t + 1) then
      (if x t then (√(((t + 1 : ℕ) : ℝ) / ((t + 1 + 1 : ℕ) : ℝ)) : ℂ) * ψ (update x t false)
          - (√(1 / ((t + 1 + 1 : ℕ) : ℝ)) : ℂ) * ψ (update x t true)
        else (√(1 / ((t + 1 + 1 : ℕ) : ℝ)) : ℂ) * ψ (update x t false)
          + (√(((t + 1 : ℕ) : ℝ) / ((t + 1 + 1 : ℕ) : ℝ)) : ℂ) * ψ (update x t true))
      else ψ x) : f (wMid n (t + 1)) = wMid n t := by
  have lin : ∀ (s : Finset ℕ) (c : ℕ → ℂ) (φ : ℕ → State) (x : Bits),
      f (fun x => ∑ p ∈ s, c p * φ p x) x = ∑ p ∈ s, c p * f (φ p) x := by
    intro s c φ x
    rw [hf]
    simp only [hf]
    split_ifs
    · rw [Finset.mul_sum, Finset.mul_sum, ← Finset.sum_sub_distrib]
      exact Finset.sum_congr rfl fun p _ => by ring
    · rw [Finset.mul_sum, Finset.mul_sum, ← Finset.sum_add_distrib]
      exact Finset.sum_congr rfl fun p _ => by ring
    · rfl
  have st : ∀ p q, stair p q = true ↔ p ≤ q := fun p q => by simp [stair]
  -- later stairs are not touched
  have hup : ∀ p, t + 1 < p → ∀ x, f (ketB n (stair p)) x = ketB n (stair p) x := by
    intro p hp x
    rw [hf, ketB_prod]
    by_cases hx : x (t + 1) = true
    · have hb : x (t + 1) ≠ stair p (t + 1) := by
        rw [hx]
        intro h
        have := (st p (t + 1)).1 h.symm
        omega
      have hz := rest_zero (n := n) (i := t + 1) (j := t) ht (by omega) hb
      rw [prodS_at (by omega), prodS_at (by omega), prodS_split (k := t) (by omega), hz]
      simp
    · rw [if_neg hx]
  -- the current stair splits
  have hcur : ∀ x, f (ketB n (stair (t + 1))) x = (√(1 / ((t + 1 + 1 : ℕ) : ℝ)) : ℂ) * ketB n (stair (t + 1)) x
      + (√(((t + 1 : ℕ) : ℝ) / ((t + 1 + 1 : ℕ) : ℝ)) : ℂ) * ketB n (stair t) x := by
    intro x
    have hst : ∀ q, q ≠ t → stair (t + 1) q = stair t q := by
      intro q hq
      unfold stair
      rw [decide_eq_decide]
      omega
    have hR : ∏ q ∈ (Finset.range n).erase t, basisV (stair (t + 1) q) (x q)
        = ∏ q ∈ (Finset.range n).erase t, basisV (stair t q) (x q) :=
      Finset.prod_congr rfl fun q hq => by rw [hst q (Finset.ne_of_mem_erase hq)]
    have s1 : stair (t + 1) t = false := by simp [stair]
    have s2 : stair t t = true := by simp [stair]
    rw [hf, ketB_prod, ketB_prod, prodS_at (by omega), prodS_at (by omega),
      prodS_split (k := t) (by omega), prodS_split (k := t) (by omega) (fun q => basisV (stair t q)), hR,
      s1, s2]
    by_cases hx : x (t + 1) = true
    · rw [if_pos hx]
      cases hxt : x t <;> simp [basisV]
    · have hb : x (t + 1) ≠ stair t (t + 1) := by
        intro h
        rw [h] at hx
        exact hx ((st t (t + 1)).2 (by omega))
      have hz := rest_zero (n := n) (i := t + 1) (j := t) ht (by omega) hb
      rw [hz]
      simp
  funext x
  unfold wMid
  rw [lin]
  rw [Finset.sum_eq_sum_Ico_succ_bot (by omega), Finset.sum_eq_sum_Ico_succ_bot (a := t) (by omega),
    Finset.sum_eq_sum_Ico_succ_bot (a := t + 1) (by omega), if_pos rfl, if_pos rfl, if_neg (by omega), hcur]
  have hn : (0 : ℝ) < n := by
    have : 0 < n := by omega
    exact_mod_cast this
  have a1 : √(((t + 1 + 1 : ℕ) : ℝ) / n) * √(1 / ((t + 1 + 1 : ℕ) : ℝ)) = √(1 / (n : ℝ)) := by
    rw [← Real.sqrt_mul (by positivity)]
    congr 1
    field_simp
  have a2 : √(((t + 1 + 1 : ℕ) : ℝ) / n) * √(((t + 1 : ℕ) : ℝ) / ((t + 1 + 1 : ℕ) : ℝ))
      = √(((t + 1 : ℕ) : ℝ) / (n : ℝ)) := by
    rw [← Real.sqrt_mul (by positivity)]
    congr 1
    field_simp
  have hsum : ∑ p ∈ Finset.Ico (t + 1 + 1) n, (if p = t + 1 then (√((t + 1 + 1 : ℕ) / (n : ℝ)) : ℂ)
        else (√(1 / (n : ℝ)) : ℂ)) * f (ketB n (stair p)) x
      = ∑ p ∈ Finset.Ico (t + 1 + 1) n, (if p = t then (√((t + 1 : ℕ) / (n : ℝ)) : ℂ)
        else (√(1 / (n : ℝ)) : ℂ)) * ketB n (stair p) x := by
    refine Finset.sum_congr rfl fun p hp => ?_
    have := (Finset.mem_Ico.1 hp).1
    rw [if_neg (by omega), if_neg (by omega), hup p (by omega)]
  rw [hsum, ← a1, ← a2]
  push_cast
  ring

theorem wMid_all {n : ℕ} (hn : 0 < n) (m : ℕ) (hm : m ≤ n - 1) :
    ∃ f, ActsL ((List.range m).flatMap (fun m => fGate (n - (m + 1)) (n - (m + 1) - 1) n (m + 1))) f ∧
      f (wMid n (n - 1)) = wMid n (n - 1 - m) := by
  induction m with
  | zero => exact ⟨_, actsL_nil, rfl⟩
  | succ m ih =>
    obtain ⟨f, h1, h2⟩ := ih (by omega)
    obtain ⟨t, ht⟩ : ∃ t, n = t + 1 + (m + 1) := ⟨n - 1 - (m + 1), by omega⟩
    obtain ⟨g, h3, h4⟩ := fGate_spec (i := n - (m + 1)) (j := n - (m + 1) - 1) (k := n) (n := m + 1)
      (by omega)
    refine ⟨fun ψ => g (f ψ), ?_, ?_⟩
    · rw [List.range_succ, List.flatMap_append, List.flatMap_cons, List.flatMap_nil, List.append_nil]
      exact actsL_append h1 h3
    · simp only [h2]
      rw [show n - 1 - m = t + 1 by omega, show n - 1 - (m + 1) = t by omega]
      apply wMid_step (by omega)
      intro ψ x
      rw [h4, cos_wAngle, sin_wAngle, show n - (m + 1) = t + 1 by omega, show t + 1 - 1 = t by omega]

/-- The CNOT chain acts on basis states. -/
theorem cx_ketB {n c t : ℕ} (hc : c < n) (ht : t < n) (hct : c ≠ t) (b : Bits) :
    pull (cxMap c t) (ketB n b) = ketB n (cxMap c t b) := by
  funext x
  unfold pull ketB
  apply if_congr _ rfl rfl
  have key : ∀ x b : Bits, (∀ q < n, x q = b q) → ∀ q < n, cxMap c t x q = cxMap c t b q := by
    intro x b h q hq
    unfold cxMap
    by_cases e : q = t
    · subst e
      rw [Function.update_self, Function.update_self, h q hq, h c hc]
    · rw [Function.update_of_ne e, Function.update_of_ne e, h q hq]
  constructor
  · intro h
    have := key _ _ h
    rwa [cxMap_cxMap hct] at this
  · intro h
    have := key _ _ h
    rwa [cxMap_cxMap hct] at this

theorem chain_stair {n p l : ℕ} (hl : l ≤ n - 1) :
    (List.range l).foldl (fun ψ l => pull (cxMap (n - 1 - l - 1) (n - 1 - l)) ψ) (ketB n (stair p))
      = ketB n (fun q => if n - 1 - l < q then decide (q = p) else stair p q) ∨ n = 0 ∨ n ≤ p := by
  by_cases hn : n = 0
  · exact .inr (.inl hn)
  by_cases hp : n ≤ p
  · exact .inr (.inr hp)
  left
  induction l with
  | zero =>
    rw [List.range_zero, List.foldl_nil]
    funext x
    unfold ketB
    apply if_congr _ rfl rfl
    refine forall_congr' fun q => ?_
    refine forall_congr' fun hq => ?_
    have e : (fun q => if n - 1 - 0 < q then decide (q = p) else stair p q) q = stair p q :=
      if_neg (by omega)
    rw [e]
  | succ l ih =>
    rw [List.range_succ, List.foldl_append, ih (by omega), List.foldl_cons, List.foldl_nil,
      cx_ketB (by omega) (by omega) (by omega)]
    congr 1
    funext q
    unfold cxMap
    by_cases e : q = n - 1 - l
    · have e1 : (fun q => if n - 1 - l < q then decide (q = p) else stair p q) (n - 1 - l)
          = stair p (n - 1 - l) := if_neg (by omega)
      have e2 : (fun q => if n - 1 - l < q then decide (q = p) else stair p q) (n - 1 - l - 1)
          = stair p (n - 1 - l - 1) := if_neg (by omega)
      rw [e, Function.update_self, e1, e2, if_pos (show n - 1 - (l + 1) < n - 1 - l by omega)]
      unfold stair
      by_cases h1 : p ≤ n - 1 - l - 1
      · rw [decide_eq_true (by omega : p ≤ n - 1 - l), decide_eq_true h1,
          decide_eq_false (by omega : ¬ n - 1 - l = p)]
        rfl
      · by_cases h2 : p ≤ n - 1 - l
        · rw [decide_eq_true h2, decide_eq_false h1, decide_eq_true (by omega : n - 1 - l = p)]
          rfl
        · rw [decide_eq_false h2, decide_eq_false h1, decide_eq_false (by omega : ¬ n - 1 - l = p)]
          rfl
    · rw [Function.update_of_ne e]
      by_cases h : n - 1 - l < q
      · rw [if_pos h, if_pos (show n - 1 - (l + 1) < q by omega)]
      · rw [if_neg h, if_neg (show ¬ n - 1 - (l + 1) < q by omega)]

theorem foldl_pull {α : Type} (l : List α) (g : α → Bits → Bits) :
    ∃ G : Bits → Bits, ∀ ψ, l.foldl (fun ψ a => pull (g a) ψ) ψ = pull G ψ := by
  induction l with
  | nil => exact ⟨fun x => x, fun _ => rfl⟩
  | cons a l ih =>
    obtain ⟨G, hG⟩ := ih
    refine ⟨fun x => g a (G x), fun ψ => ?_⟩
    rw [List.foldl_cons, hG]
    rfl

theorem w_spec (n : ℕ) (hn : 0 < n) : ∃ ops f, createWState n = .ok ops ∧ ActsL ops f ∧
    ∀ x : Bits, f (ket0 n) x = if ∃ p < n, ∀ q < n, x q = decide (q = p)
      then (√(1 / (n : ℝ)) : ℂ) else 0 := by
  obtain ⟨f, h1, h2⟩ := wMid_all hn (n - 1) le_rfl
  obtain ⟨G, hG⟩ := foldl_pull (List.range (n - 1)) fun l => cxMap (n - 1 - l - 1) (n - 1 - l)
  unfold createWState
  rw [if_neg (by omega)]
  refine ⟨_, _, rfl, actsL_append (actsL_append (actsL_singleton (acts_x (n - 1))) h1)
    (actsL_map (List.range (n - 1)) fun l _ => acts_cx (n - 1 - l - 1) (n - 1 - l)), fun x => ?_⟩
  rw [← wMid_start hn, h2, Nat.sub_self, hG]
  have e : pull G (wMid n 0) x = ∑ p ∈ Finset.range n, (√(1 / (n : ℝ)) : ℂ) * ketB n (unitB p) x := by
    unfold wMid pull
    rw [← Finset.range_eq_Ico]
    refine Finset.sum_congr rfl fun p hp => ?_
    have hp' := Finset.mem_range.1 hp
    have hc : (if p = 0 then (√((0 + 1 : ℕ) / (n : ℝ)) : ℂ) else (√(1 / (n : ℝ)) : ℂ)) = √(1 / (n : ℝ)) := by
      simp
    rw [hc]
    congr 1
    have h3 := (chain_stair (n := n) (p := p) (l := n - 1) le_rfl).resolve_right (by omega)
    rw [hG] at h3
    have h4 := congrFun h3 x
    rw [pull] at h4
    rw [h4]
    congr 1
    funext q
    rw [Nat.sub_self]
    unfold unitB stair
    by_cases hq : 0 < q
    · rw [if_pos hq]
    · rw [if_neg hq, decide_eq_decide]; omega
  rw [e]
  split_ifs with h
  · obtain ⟨p, hp, hx⟩ := h
    rw [Finset.sum_eq_single p]
    · unfold ketB unitB
      rw [if_pos hx, mul_one]
    · intro b hb hbp
      unfold ketB unitB
      rw [if_neg, mul_zero]
      intro h'
      have h1 := hx p hp
      have h2 := h' p hp
      rw [h1] at h2
      simp at h2
      exact hbp h2.symm
    · intro h; exact absurd (Finset.mem_range.2 hp) h
  · apply Finset.sum_eq_zero
    intro p hp
    unfold ketB unitB
    rw [if_neg, mul_zero]
    intro hx
    exact h ⟨p, Finset.mem_range.1 hp, hx⟩

end MQT.Alg

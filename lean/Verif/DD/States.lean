/-
Constructors of state and matrix decision diagrams.

Source in /repo, src/dd/Package.cpp:
  170-184   `makeZeroState`
  186-206   `makeBasisState` (classical values)
  207-257   `makeBasisState` (the six single-qubit basis states)
  258-288   `makeGHZState`
  289-324   `makeWState`
  325-344, 562-577  `makeStateFromVector`
  539-561, 578-604  `makeDDFromMatrix`

Reading a `std::vector` out of bounds is `Res.ub`, an exception is `Res.throw`.
The underflow check of `makeWState` compares with the tolerance, which is 0 here.
-/
import Verif.DD.Read
import Verif.Common.Vec
import Verif.IR.Gates

set_option autoImplicit false

noncomputable section

open Classical
open Function (update)
open Complex (normSq)

namespace MQT.DD

open MQT.IR (Bits State r2)

/-! ### Model -/

/-- `std::array{a, b}`. -/
def pair (a b : VEdge) : Bool → VEdge := fun i => if i then b else a

/-- `makeZeroState`. -/
def makeZeroState (nqubits n start : ℕ) : Res VEdge :=
  if n + start > nqubits then .throw
  else .ok ((List.range' start n).foldl (fun f p => makeVE p (pair f .zero)) .one)

/-- The loop of `makeBasisState` on classical values. -/
def basisLoop (state : List Bool) : List ℕ → VEdge → Res VEdge
  | [], f => .ok f
  | p :: ps, f =>
    match state[p]? with
    | none => .ub
    | some false => basisLoop state ps (makeVE p (pair f .zero))
    | some true => basisLoop state ps (makeVE p (pair .zero f))

/-- `makeBasisState` on classical values. -/
def makeBasisState (nqubits n : ℕ) (state : List Bool) (start : ℕ) : Res VEdge :=
  if n + start > nqubits then .throw
  else basisLoop state (List.range' start n) .one

/-- `BasisStates`. -/
inductive BasisState
  | zero | one | plus | minus | right | left
  deriving DecidableEq

/-- One round of the loop of `makeBasisState` (Package.cpp 226-251). -/
def basisStep (p : ℕ) (f : VEdge) : BasisState → VEdge
  | .zero => makeV p (pair f .zero)
  | .one => makeV p (pair .zero f)
  | .plus => makeV p (pair ⟨f.p, r2⟩ ⟨f.p, r2⟩)
  | .minus => makeV p (pair ⟨f.p, r2⟩ ⟨f.p, -r2⟩)
  | .right => makeV p (pair ⟨f.p, r2⟩ ⟨f.p, Complex.I * r2⟩)
  | .left => makeV p (pair ⟨f.p, r2⟩ ⟨f.p, -(Complex.I * r2)⟩)

/-- The loop of `makeBasisState` on single-qubit basis states. -/
def basisLoop6 (state : List BasisState) : List ℕ → VEdge → Res VEdge
  | [], f => .ok f
  | p :: ps, f =>
    match state[p]? with
    | none => .ub
    | some s => basisLoop6 state ps (basisStep p f s)

/-- `makeBasisState` on single-qubit basis states. -/
def makeBasisState6 (nqubits n : ℕ) (state : List BasisState) (start : ℕ) : Res VEdge :=
  if n + start > nqubits then .throw
  else if state.length < n then .throw
  else basisLoop6 state (List.range' start n) .one

/-- `makeGHZState`. -/
def makeGHZState (nqubits n : ℕ) : Res VEdge :=
  if n > nqubits then .throw
  else if n = 0 then .ok .one
  else
    let lr := (List.range (n - 1)).foldl
      (fun lr p => (makeVE p (pair lr.1 .zero), makeVE p (pair .zero lr.2))) (Edge.one, Edge.one)
    .ok (makeVE (n - 1) (pair ⟨lr.1.p, r2⟩ ⟨lr.2.p, r2⟩))

/-- `makeWState`. -/
def makeWState (nqubits n : ℕ) : Res VEdge :=
  if n > nqubits then .throw
  else if n = 0 then .ok .one
  else
    let lr := (List.range n).foldl
      (fun lr p => (makeVE p (pair lr.1 lr.2),
        if p ≠ n - 1 then makeVE p (pair lr.2 .zero) else lr.2))
      (Edge.zero, Edge.terminal ((1 / √n : ℝ) : ℂ))
    .ok lr.1

/-- The recursive `makeStateFromVector`. -/
def stateRec : ℕ → List ℂ → VEdge
  | 0, l => makeV 0 (pair (.terminal (l.getD 0 0)) (.terminal (l.getD 1 0)))
  | level + 1, l =>
    makeV (level + 1) (pair (stateRec level (l.take (l.length / 2)))
      (stateRec level (l.drop (l.length / 2))))

/-- `makeStateFromVector`.  (`l` has at least two elements in the last branch, so that no
element is read outside of it.) -/
def makeStateFromVector (l : List ℂ) : Res VEdge :=
  if l = [] then .ok .one
  else if l.length &&& (l.length - 1) ≠ 0 then .throw
  else if l.length = 1 then .ok (.terminal (l.getD 0 0))
  else .ok (stateRec (Nat.log 2 l.length - 1) l).lookup

/-- Entry of a nested array; out of bounds is undefined. -/
def cell (m : List (List ℂ)) (i j : ℕ) : Option ℂ := (m[i]?).bind fun row => row[j]?

/-- The recursive `makeDDFromMatrix`. -/
def matRec (m : List (List ℂ)) : ℕ → ℕ → ℕ → ℕ → ℕ → Option MEdge
  | 0, rs, _, cs, _ =>
    (collect fun b : RC => cell m (rs + b.1.toNat) (cs + b.2.toNat)).map fun f =>
      makeM 0 (fun b => .terminal (f b))
  | level + 1, rs, re, cs, ce =>
    let rm := (rs + re) / 2
    let cm := (cs + ce) / 2
    (collect fun b : RC =>
      matRec m level (if b.1 then rm else rs) (if b.1 then re else rm)
        (if b.2 then cm else cs) (if b.2 then ce else cm)).map (makeM (level + 1))

/-- `makeDDFromMatrix`. -/
def makeDDFromMatrix (m : List (List ℂ)) : Res MEdge :=
  match m with
  | [] => .ok .one
  | row :: _ =>
    if m.length &&& (m.length - 1) ≠ 0 then .throw
    else if m.length ≠ row.length then .throw
    else if m.length = 1 then .ok (.terminal (row.getD 0 0))
    else
      match matRec m (Nat.log 2 m.length - 1) 0 m.length 0 row.length with
      | none => .ub
      | some e => .ok e.lookup

/-! ### Basis states -/

theorem pair_zero (a b : VEdge) (ha : a.w = 0 → a.p = .term) (hb : b.w = 0 → b.p = .term) :
    ∀ i, (pair a b i).w = 0 → (pair a b i).p = .term := by
  intro i; cases i
  · exact ha
  · exact hb

theorem makeVE_eq {p : ℕ} {a b : VEdge} (ha : a.w = 0 → a.p = .term) (hb : b.w = 0 → b.p = .term) :
    makeVE p (pair a b) = makeV p (pair a b) := vNormalizeE_eq p _ (pair_zero a b ha hb)

theorem makeV_weight (v : ℕ) (e : Bool → VEdge) : (makeV v e).w = vtop (fun b => (e b).w) := by
  unfold makeV
  rw [vNormalize_eq]
  split_ifs with h
  · rw [h]; rfl
  · rfl

theorem vtop_left (c : ℝ) (hc : 0 < c) (z : ℂ) (hz : normSq z ≤ c * c) {w : Bool → ℂ}
    (h0 : w false = c) (h1 : w true = z) : vtop w = ((√(c * c + normSq z) : ℝ) : ℂ) := by
  have hv : varg w = false := by
    unfold varg
    rw [h0, h1, Complex.normSq_ofReal, if_pos hz]
  unfold vtop
  rw [hv, h0, h1, Complex.normSq_ofReal, Real.sqrt_mul_self hc.le]
  have hc' : (c : ℂ) ≠ 0 := by exact_mod_cast hc.ne'
  push_cast
  rw [mul_div_assoc', mul_div_cancel_left₀ _ hc']

theorem vtop_right {w : Bool → ℂ} (h0 : w false = 0) (h1 : w true = 1) : vtop w = 1 := by
  have hv : varg w = true := by
    unfold varg
    rw [h0, h1, map_zero, map_one, if_neg (by norm_num)]
  unfold vtop
  rw [hv, h0, h1]
  simp

/-- The amplitudes of the six basis states. -/
def BasisState.amp : BasisState → Bool → ℂ
  | .zero, b => if b then 0 else 1
  | .one, b => if b then 1 else 0
  | .plus, _ => r2
  | .minus, b => if b then -r2 else r2
  | .right, b => if b then Complex.I * r2 else r2
  | .left, b => if b then -(Complex.I * r2) else r2

theorem r2_pos : 0 < r2 := by unfold r2; positivity
theorem r2_mul : r2 * r2 = 1 / 2 := by
  unfold r2
  rw [div_mul_div_comm, Real.mul_self_sqrt (by norm_num)]; norm_num

theorem basisStep_spec {p : ℕ} {f : VEdge} (hf : f.w = 1) (s : BasisState) :
    (basisStep p f s).w = 1 ∧ (∀ x, (basisStep p f s).vec x = s.amp (x p) * f.vec x) ∧
      (VOk p f → VOk (p + 1) (basisStep p f s)) := by
  have hn : √(r2 * r2 + r2 * r2) = 1 := by rw [r2_mul]; norm_num
  have hI : normSq (Complex.I * r2) = r2 * r2 := by simp
  have gen : ∀ (e : Bool → VEdge), basisStep p f s = makeV p e →
      (∀ b, (e b).vec = fun x => s.amp b * f.vec x) → vtop (fun b => (e b).w) = 1 →
      (VOk p f → ∀ b, VOk p (e b)) →
      (basisStep p f s).w = 1 ∧ (∀ x, (basisStep p f s).vec x = s.amp (x p) * f.vec x) ∧
      (VOk p f → VOk (p + 1) (basisStep p f s)) := by
    intro e he h1 h2 h3
    rw [he]
    exact ⟨by rw [makeV_weight, h2], fun x => by rw [makeV_vec, h1],
      fun hok => (makeV_can (h3 hok)).ok⟩
  have hval : ∀ (z : ℂ) (x : Bits), (⟨f.p, z⟩ : VEdge).vec x = z * f.vec x := by
    intro z x; simp [Edge.vec, hf]
  have hok : ∀ z : ℂ, VOk p f → VOk p ⟨f.p, z⟩ := fun z h _ => h (by rw [hf]; exact one_ne_zero)
  cases s
  · refine gen _ rfl (fun b => ?_) ?_ (fun h b => ?_)
    · funext x; cases b <;> simp [pair, BasisState.amp]
    · rw [vtop_left 1 one_pos 0 (by simp) (by simp [pair, hf]) (by simp [pair])]; simp
    · cases b
      · exact h
      · exact VOk.zero _
  · refine gen _ rfl (fun b => ?_) ?_ (fun h b => ?_)
    · funext x; cases b <;> simp [pair, BasisState.amp]
    · exact vtop_right (by simp [pair]) (by simp [pair, hf])
    · cases b
      · exact VOk.zero _
      · exact h
  all_goals
    refine gen _ rfl (fun b => ?_) ?_ (fun h b => by cases b <;> exact hok _ h)
  · funext x; cases b <;> exact hval _ x
  · rw [vtop_left r2 r2_pos r2 (by simp) (by simp [pair]) (by simp [pair])]
    simp [hn]
  · funext x; cases b <;> exact hval _ x
  · rw [vtop_left r2 r2_pos (-r2) (by simp) (by simp [pair]) (by simp [pair])]
    simp [hn]
  · funext x; cases b <;> exact hval _ x
  · rw [vtop_left r2 r2_pos (Complex.I * r2) (by rw [hI]) (by simp [pair]) (by simp [pair]), hI, hn]
    simp
  · funext x; cases b <;> exact hval _ x
  · rw [vtop_left r2 r2_pos (-(Complex.I * r2)) (by rw [Complex.normSq_neg, hI]) (by simp [pair])
      (by simp [pair]), Complex.normSq_neg, hI, hn]
    simp

theorem basisLoop6_spec (state : List BasisState) (k start : ℕ) (f : VEdge) (hf : f.w = 1)
    (hs : start + k ≤ state.length) :
    ∃ e, basisLoop6 state (List.range' start k) f = .ok e ∧ e.w = 1 ∧
      (∀ x, e.vec x = (∏ q ∈ Finset.range k, (state.getD (start + q) .zero).amp (x (start + q)))
        * f.vec x) ∧ (VOk start f → VOk (start + k) e) := by
  induction k generalizing start f with
  | zero => exact ⟨f, rfl, hf, fun x => by simp, fun h => h⟩
  | succ k ih =>
    have hlt : start < state.length := by omega
    obtain ⟨s1, s2, s3⟩ := basisStep_spec (p := start) hf state[start]
    obtain ⟨e, h1, h2, h3, h4⟩ := ih (start + 1) _ s1 (by omega)
    refine ⟨e, ?_, h2, fun x => ?_, fun hok => ?_⟩
    · rw [List.range'_succ, basisLoop6, List.getElem?_eq_getElem hlt]
      exact h1
    · rw [h3, s2, Finset.prod_range_succ', List.getD_eq_getElem _ _ (show start + 0 < _ from hlt)]
      simp only [Nat.add_zero, Nat.add_assoc, Nat.add_comm 1]
      ring
    · have := h4 (s3 hok)
      rwa [show start + (k + 1) = start + 1 + k by omega]

theorem basisLoop_eq (state : List Bool) (k start : ℕ) (f : VEdge) (hf : f.w = 1) :
    basisLoop state (List.range' start k) f
      = basisLoop6 (state.map fun b => if b then .one else .zero) (List.range' start k) f := by
  induction k generalizing start f with
  | zero => rfl
  | succ k ih =>
    rw [List.range'_succ, basisLoop, basisLoop6, List.getElem?_map]
    have h1 : f.w = 0 → f.p = .term := fun h => by rw [hf] at h; exact absurd h one_ne_zero
    cases state[start]? with
    | none => rfl
    | some b =>
      cases b
      · simp only [Option.map_some]
        rw [makeVE_eq h1 (fun _ => rfl)]
        exact ih _ _ (basisStep_spec hf .zero).1
      · simp only [Option.map_some]
        rw [makeVE_eq (fun _ => rfl) h1]
        exact ih _ _ (basisStep_spec hf .one).1

theorem zeroLoop_eq (k start : ℕ) (f : VEdge) (hf : f.w = 1) :
    Res.ok ((List.range' start k).foldl (fun f p => makeVE p (pair f .zero)) f)
      = basisLoop6 (List.replicate (start + k) .zero) (List.range' start k) f := by
  induction k generalizing start f with
  | zero => rfl
  | succ k ih =>
    have h1 : f.w = 0 → f.p = .term := fun h => by rw [hf] at h; exact absurd h one_ne_zero
    rw [List.range'_succ, List.foldl_cons, basisLoop6, List.getElem?_replicate, if_pos (by omega),
      makeVE_eq h1 (fun _ => rfl)]
    simp only
    rw [show start + (k + 1) = start + 1 + k by omega]
    exact ih (start + 1) _ (basisStep_spec hf .zero).1

/-! ### GHZ and W states -/

theorem one_nz {f : VEdge} (hf : f.w = 1) : f.w = 0 → f.p = .term :=
  fun h => by rw [hf] at h; exact absurd h one_ne_zero

theorem ghz_loop (k : ℕ) :
    let lr := (List.range k).foldl
      (fun lr p => (makeVE p (pair lr.1 .zero), makeVE p (pair .zero lr.2)))
      ((Edge.one : VEdge), (Edge.one : VEdge))
    lr.1.w = 1 ∧ lr.2.w = 1 ∧ VOk k lr.1 ∧ VOk k lr.2 ∧
      (∀ x, lr.1.vec x = if ∀ q < k, x q = false then 1 else 0) ∧
      (∀ x, lr.2.vec x = if ∀ q < k, x q = true then 1 else 0) := by
  induction k with
  | zero =>
    refine ⟨rfl, rfl, fun _ => rfl, fun _ => rfl, fun x => ?_, fun x => ?_⟩ <;>
      simp [Edge.vec, vval]
  | succ k ih =>
    obtain ⟨h1, h2, h3, h4, h5, h6⟩ := ih
    simp only [List.range_succ, List.foldl_append, List.foldl_cons, List.foldl_nil]
    rw [makeVE_eq (one_nz h1) (fun _ => rfl), makeVE_eq (fun _ => rfl) (one_nz h2)]
    obtain ⟨a1, a2, a3⟩ := basisStep_spec (p := k) h1 .zero
    obtain ⟨b1, b2, b3⟩ := basisStep_spec (p := k) h2 .one
    refine ⟨a1, b1, a3 h3, b3 h4, fun x => ?_, fun x => ?_⟩
    · have := a2 x
      simp only [basisStep] at this
      have hs : (∀ q < k + 1, x q = false) ↔ (∀ q < k, x q = false) ∧ x k = false :=
        Nat.forall_lt_succ_right
      simp only [this, h5, BasisState.amp, hs]
      cases hx : x k <;> simp
    · have := b2 x
      simp only [basisStep] at this
      have hs : (∀ q < k + 1, x q = true) ↔ (∀ q < k, x q = true) ∧ x k = true :=
        Nat.forall_lt_succ_right
      simp only [this, h6, BasisState.amp, hs]
      cases hx : x k <;> simp

/-- Number of ones among the lowest `k` qubits. -/
def weight (k : ℕ) (x : Bits) : ℕ := ((Finset.range k).filter fun q => x q = true).card

theorem weight_succ (k : ℕ) (x : Bits) : weight (k + 1) x = weight k x + if x k then 1 else 0 := by
  unfold weight
  rw [Finset.range_add_one, Finset.filter_insert]
  split_ifs with h
  · rw [Finset.card_insert_of_notMem (by simp)]
  · rfl

theorem w_loop (n k : ℕ) (hk : k ≤ n) :
    let lr := (List.range k).foldl
      (fun lr p => (makeVE p (pair lr.1 lr.2),
        if p ≠ n - 1 then makeVE p (pair lr.2 .zero) else lr.2))
      ((Edge.zero : VEdge), (Edge.terminal ((1 / √n : ℝ) : ℂ) : VEdge))
    VECan k lr.1 ∧ (∀ x, lr.1.vec x = if weight k x = 1 then ((1 / √n : ℝ) : ℂ) else 0) ∧
      (k < n → VECan k lr.2 ∧
        ∀ x, lr.2.vec x = if weight k x = 0 then ((1 / √n : ℝ) : ℂ) else 0) := by
  induction k with
  | zero =>
    refine ⟨VECan.zero _, fun x => ?_, fun _ => ⟨⟨fun _ => rfl, fun _ => rfl⟩, fun x => ?_⟩⟩
    · simp [weight]
    · simp [weight, Edge.vec, vval]
  | succ k ih =>
    obtain ⟨h1, h2, h3⟩ := ih (by omega)
    obtain ⟨h4, h5⟩ := h3 (by omega)
    simp only [List.range_succ, List.foldl_append, List.foldl_cons, List.foldl_nil]
    generalize List.foldl _ _ (List.range k) = lr at h1 h2 h4 h5 ⊢
    generalize ((1 / √n : ℝ) : ℂ) = z at h2 h5 ⊢
    rw [makeVE_eq h1.1 h4.1, makeVE_eq h4.1 (fun _ => rfl)]
    refine ⟨makeV_can (fun b => by cases b <;> [exact h1.ok; exact h4.ok]), fun x => ?_, fun hlt => ?_⟩
    · rw [makeV_vec, weight_succ]
      cases x k
      · simp [pair, h2]
      · simp [pair, h5]
    · rw [if_pos (by omega)]
      refine ⟨makeV_can (fun b => by cases b <;> [exact h4.ok; exact VOk.zero _]), fun x => ?_⟩
      rw [makeV_vec, weight_succ]
      cases x k
      · simp [pair, h5]
      · simp [pair]

/-! ### From vectors and matrices -/

theorem testBit_add_pow {i n q : ℕ} (hi : i < 2 ^ n) :
    (2 ^ n + i).testBit q = if q = n then true else i.testBit q := by
  rw [Nat.add_comm]
  split_ifs with h
  · subst h
    rw [Nat.add_comm, Nat.testBit_two_pow_add_eq, Nat.testBit_lt_two_pow hi]; rfl
  · rcases Nat.lt_or_ge q n with h' | h'
    · rw [Nat.add_comm, Nat.testBit_two_pow_add_gt h']
    · have h1 : 2 ^ n + i < 2 ^ q := by
        calc 2 ^ n + i < 2 ^ n + 2 ^ n := by omega
          _ = 2 ^ (n + 1) := by ring
          _ ≤ 2 ^ q := Nat.pow_le_pow_right (by norm_num) (by omega)
      rw [Nat.add_comm, Nat.testBit_lt_two_pow h1,
        Nat.testBit_lt_two_pow (lt_of_le_of_lt (Nat.le_add_left _ _) h1)]

theorem stateRec_spec (n : ℕ) (l : List ℂ) (hl : l.length = 2 ^ (n + 1)) :
    VECan (n + 1) (stateRec n l) ∧ ∀ i < 2 ^ (n + 1), (stateRec n l).vec (bitsOf i) = l.getD i 0 := by
  induction n generalizing l with
  | zero =>
    rw [stateRec]
    refine ⟨makeV_can (fun b => by cases b <;> exact fun _ => rfl), fun i hi => ?_⟩
    rw [makeV_vec]
    have : i = 0 ∨ i = 1 := by omega
    rcases this with rfl | rfl <;> simp [pair, bitsOf, Edge.vec, vval]
  | succ n ih =>
    have hhalf : l.length / 2 = 2 ^ (n + 1) := by rw [hl, pow_succ]; omega
    have hpow : 2 ^ (n + 1 + 1) = 2 ^ (n + 1) + 2 ^ (n + 1) := by ring
    obtain ⟨a1, a2⟩ := ih (l.take (l.length / 2)) (by rw [List.length_take, hhalf, hl]; omega)
    obtain ⟨b1, b2⟩ := ih (l.drop (l.length / 2)) (by rw [List.length_drop, hhalf, hl]; omega)
    rw [stateRec]
    refine ⟨makeV_can (fun b => by cases b <;> [exact a1.ok; exact b1.ok]), fun i hi => ?_⟩
    rw [makeV_vec]
    rcases Nat.lt_or_ge i (2 ^ (n + 1)) with h | h
    · have hb : bitsOf i (n + 1) = false := Nat.testBit_lt_two_pow h
      rw [hb]
      simp only [pair, Bool.false_eq_true, if_false]
      rw [a2 i h, hhalf, List.getD_eq_getElem?_getD, List.getElem?_take_of_lt h,
        List.getD_eq_getElem?_getD]
    · obtain ⟨j, rfl⟩ := Nat.exists_eq_add_of_le h
      have hj : j < 2 ^ (n + 1) := by omega
      have hb : bitsOf (2 ^ (n + 1) + j) (n + 1) = true := by
        unfold bitsOf; rw [testBit_add_pow hj, if_pos rfl]
      rw [hb]
      simp only [pair, if_true]
      rw [vec_congr b1.ok (a' := bitsOf j) (fun q hq => by
        unfold bitsOf; rw [testBit_add_pow hj, if_neg (by omega)]), b2 j hj, hhalf,
        List.getD_eq_getElem?_getD, List.getElem?_drop, List.getD_eq_getElem?_getD]

theorem testBit_split {n i : ℕ} (hi : i < 2 ^ (n + 1)) :
    ∃ j < 2 ^ n, i = (if bitsOf i n then 2 ^ n else 0) + j ∧ ∀ q < n, bitsOf i q = bitsOf j q := by
  rcases Nat.lt_or_ge i (2 ^ n) with h | h
  · have hb : bitsOf i n = false := Nat.testBit_lt_two_pow h
    exact ⟨i, h, by rw [hb]; simp, fun q _ => rfl⟩
  · obtain ⟨j, rfl⟩ := Nat.exists_eq_add_of_le h
    have hj : j < 2 ^ n := by rw [pow_succ] at hi; omega
    have hb : bitsOf (2 ^ n + j) n = true := by unfold bitsOf; rw [testBit_add_pow hj, if_pos rfl]
    exact ⟨j, hj, by rw [hb]; simp, fun q hq => by
      unfold bitsOf; rw [testBit_add_pow hj, if_neg (by omega)]⟩

theorem matRec_spec (m : List (List ℂ)) (N : ℕ) (hm : m.length = N) (hrow : ∀ row ∈ m, row.length = N)
    (n rs cs : ℕ) (hr : rs + 2 ^ (n + 1) ≤ N) (hc : cs + 2 ^ (n + 1) ≤ N) :
    ∃ e, matRec m n rs (rs + 2 ^ (n + 1)) cs (cs + 2 ^ (n + 1)) = some e ∧ MECan (n + 1) e ∧
      ∀ i < 2 ^ (n + 1), ∀ j < 2 ^ (n + 1),
        e.mat (n + 1) (bitsOf i) (bitsOf j) = matFun m (rs + i, cs + j) := by
  have hcell : ∀ i j, i < N → j < N → cell m i j = some (matFun m (i, j)) := by
    intro i j hi hj
    unfold cell matFun
    have hi' : i < m.length := by rw [hm]; exact hi
    have hj' : j < (m[i]).length := by rw [hrow _ (List.getElem_mem hi')]; exact hj
    rw [List.getElem?_eq_getElem hi', Option.bind_some, List.getElem?_eq_getElem hj']
    simp only
    rw [List.getD_eq_getElem _ _ hi', List.getD_eq_getElem _ _ hj']
  induction n generalizing rs cs with
  | zero =>
    rw [matRec, collect_some (g := fun b : RC => matFun m (rs + b.1.toNat, cs + b.2.toNat))]
    · refine ⟨_, rfl, makeM_can (n := 0) (e := fun b => .terminal _) (fun b _ => trivial), fun i hi j hj => ?_⟩
      rw [makeM_mat (n := 0) (e := fun b => .terminal _) (fun b _ => trivial)]
      have hi' : i = 0 ∨ i = 1 := by omega
      have hj' : j = 0 ∨ j = 1 := by omega
      rcases hi' with rfl | rfl <;> rcases hj' with rfl | rfl <;> simp [bitsOf, Edge.mat, mval]
    · intro b
      apply hcell
      · have := Bool.toNat_le b.1; omega
      · have := Bool.toNat_le b.2; omega
  | succ n ih =>
    have hpow : 2 ^ (n + 1 + 1) = 2 ^ (n + 1) + 2 ^ (n + 1) := by ring
    have hp0 : 0 < 2 ^ n := by positivity
    have hmid : ∀ s : ℕ, (s + (s + 2 ^ (n + 1 + 1))) / 2 = s + 2 ^ (n + 1) := by intro s; omega
    have hb : ∀ b : RC, ∃ e, matRec m n (if b.1 then rs + 2 ^ (n + 1) else rs)
        (if b.1 then rs + 2 ^ (n + 1 + 1) else rs + 2 ^ (n + 1))
        (if b.2 then cs + 2 ^ (n + 1) else cs)
        (if b.2 then cs + 2 ^ (n + 1 + 1) else cs + 2 ^ (n + 1)) = some e ∧ MECan (n + 1) e ∧
        ∀ i < 2 ^ (n + 1), ∀ j < 2 ^ (n + 1), e.mat (n + 1) (bitsOf i) (bitsOf j)
          = matFun m (rs + (if b.1 then 2 ^ (n + 1) else 0) + i, cs + (if b.2 then 2 ^ (n + 1) else 0) + j) := by
      rintro ⟨p, q⟩
      obtain ⟨e, h1, h2, h3⟩ := ih (rs + if p then 2 ^ (n + 1) else 0) (cs + if q then 2 ^ (n + 1) else 0)
        (by cases p <;> simp <;> omega) (by cases q <;> simp <;> omega)
      refine ⟨e, ?_, h2, h3⟩
      rw [← h1]
      cases p <;> cases q <;> simp [hpow, Nat.add_assoc]
    choose g hg using hb
    rw [matRec]
    simp only [hmid]
    rw [collect_some (fun b => (hg b).1)]
    refine ⟨_, rfl, makeM_can (fun b => (hg b).2.1.ok), fun i hi j hj => ?_⟩
    rw [makeM_mat (fun b => (hg b).2.1.ok)]
    obtain ⟨i', hi', e1, a1⟩ := testBit_split hi
    obtain ⟨j', hj', e2, a2⟩ := testBit_split hj
    rw [mat_congr _ _ a1 a2, (hg _).2.2 i' hi' j' hj']
    conv_rhs => rw [e1, e2]
    simp only [Nat.add_assoc]

/-- Every assignment of the lowest `n` qubits is given by an index. -/
theorem exists_index (n : ℕ) (x : Bits) : ∃ i < 2 ^ n, ∀ q < n, bitsOf i q = x q := by
  induction n with
  | zero => exact ⟨0, by norm_num, fun q hq => absurd hq (by omega)⟩
  | succ n ih =>
    obtain ⟨i, hi, h⟩ := ih
    cases hx : x n with
    | false =>
      refine ⟨i, by rw [pow_succ]; omega, fun q hq => ?_⟩
      by_cases hqn : q = n
      · subst hqn; rw [hx]; exact Nat.testBit_lt_two_pow hi
      · exact h q (by omega)
    | true =>
      refine ⟨2 ^ n + i, by rw [pow_succ]; omega, fun q hq => ?_⟩
      unfold bitsOf
      rw [testBit_add_pow hi]
      by_cases hqn : q = n
      · subst hqn; rw [hx, if_pos rfl]
      · rw [if_neg hqn]; exact h q (by omega)

end MQT.DD

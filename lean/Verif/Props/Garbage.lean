/-
C99: garbage qubits are summed over.
-/
import Verif.Sim.Garbage
import Verif.Props.Sim
import Verif.Props.DDArith

set_option autoImplicit false

noncomputable section

open Classical
open Complex (normSq)

namespace MQT.DD

open MQT.IR (Bits State)

/-- **C99.** Reducing the garbage qubits of a state: where they are 0, the squared magnitudes of the entries are summed over their
values; elsewhere the entries are 0. -/
theorem c99_vector {n : ℕ} {e : VEdge} (he : VECan n e) {gar : List Bool} (hn : gar.length = n) :
    ∃ r, reduceGarbageV e gar false = some r ∧ VECan n r ∧
      ∀ x, normSq (r.vec x) = if ∀ q ∈ gset gar n, x q = false then margin (gset gar n) (fun z => normSq (e.vec z)) x else 0 :=
  reduceGarbageV_spec he hn false (by simp)

/-- **C99.** With `normalizeWeights` the entries themselves are the documented ones.  Missing from C99: terminals
(`c99_terminal`), and the values without `normalizeWeights` (`c99_phases`). -/
theorem c99_vector_magnitudes_partial {n : ℕ} {e : VEdge} (he : VECan n e) (hp : e.p ≠ .term) {gar : List Bool}
    (hn : gar.length = n) :
    ∃ r, reduceGarbageV e gar true = some r ∧ VECan n r ∧ ∀ x, r.vec x =
      ((if ∀ q ∈ gset gar n, x q = false then √(margin (gset gar n) (fun z => normSq (e.vec z)) x) else 0 : ℝ) : ℂ) := by
  obtain ⟨r, h1, h2, h3⟩ := reduceGarbageV_spec he hn true fun _ => hp
  refine ⟨r, h1, h2, fun x => ?_⟩
  rw [((reduceGarbageV_mag h1).vec x).eq (h3 x)]
  split_ifs <;> simp

/-- **C99.** Reducing the garbage qubits of a matrix sums over the rows (regular), for every column. -/
theorem c99_matrix {n : ℕ} {e : MEdge} (he : MECan n e) {gar : List Bool} (hn : gar.length = n) :
    ∃ r, reduceGarbageM e gar true false = some r ∧ MECan n r ∧ ∀ x y, normSq (r.mat n x y) =
      if ∀ q ∈ gset gar n, x q = false then margin (gset gar n) (fun z => normSq (e.mat n z y)) x else 0 := by
  obtain ⟨r, h1, h2, h3⟩ := reduceGarbageM_spec he hn true false (by simp)
  exact ⟨r, h1, h2, fun x y => h3 y x⟩

/-- **C99.** The inverse direction sums over the columns. -/
theorem c99_matrix_inverse {n : ℕ} {e : MEdge} (he : MECan n e) {gar : List Bool} (hn : gar.length = n) :
    ∃ r, reduceGarbageM e gar false false = some r ∧ MECan n r ∧ ∀ x y, normSq (r.mat n x y) =
      if ∀ q ∈ gset gar n, y q = false then margin (gset gar n) (fun z => normSq (e.mat n x z)) y else 0 := by
  obtain ⟨r, h1, h2, h3⟩ := reduceGarbageM_spec he hn false false (by simp)
  exact ⟨r, h1, h2, fun x y => h3 x y⟩

/-- **C99.** With `normalizeWeights` the entries themselves are the documented ones.  Missing from C99: multiples of the identity
(`c99_identity`, `c99_terminal`). -/
theorem c99_matrix_magnitudes_partial {n : ℕ} {e : MEdge} (he : MECan n e) (hp : e.p ≠ .term) {gar : List Bool}
    (hn : gar.length = n) :
    (∃ r, reduceGarbageM e gar true true = some r ∧ MECan n r ∧ ∀ x y, r.mat n x y =
      ((if ∀ q ∈ gset gar n, x q = false then √(margin (gset gar n) (fun z => normSq (e.mat n z y)) x) else 0 : ℝ) : ℂ)) ∧
    ∃ r, reduceGarbageM e gar false true = some r ∧ MECan n r ∧ ∀ x y, r.mat n x y =
      ((if ∀ q ∈ gset gar n, y q = false then √(margin (gset gar n) (fun z => normSq (e.mat n x z)) y) else 0 : ℝ) : ℂ) := by
  have hw : e.w ≠ 0 := fun h => hp (he.1 h)
  constructor
  · obtain ⟨r, h1, h2, h3⟩ := reduceGarbageM_spec he hn true true fun _ => hw
    refine ⟨r, h1, h2, fun x y => ?_⟩
    rw [((reduceGarbageM_mag hp h1).mat n x y).eq (h3 y x)]
    split_ifs <;> simp [matS]
  · obtain ⟨r, h1, h2, h3⟩ := reduceGarbageM_spec he hn false true fun _ => hw
    refine ⟨r, h1, h2, fun x y => ?_⟩
    rw [((reduceGarbageM_mag hp h1).mat n x y).eq (h3 x y)]
    split_ifs <;> simp [matS]

/-- The state with amplitude `1` where qubit 0 is 0, and `2i` where it is 1, whatever qubit 1 is. -/
def twoSided : VEdge := makeV 1 fun _ => makeV 0 fun b => .terminal (if b then 2 * Complex.I else 1)

theorem twoSided_can : VECan 2 twoSided := 
  makeV_can (n := 1) fun _ => (makeV_can (n := 0) (e := fun b => .terminal (if b then 2 * Complex.I else 1)) fun _ _ => rfl).2

theorem twoSided_vec (z : Bits) : twoSided.vec z = if z 0 then 2 * Complex.I else 1 := by
  rw [twoSided, makeV_vec, makeV_vec]
  simp [Edge.vec, vval]

/-- Qubit 1 is garbage: the entry where qubit 0 is 1 gets the squared magnitude 8. -/
example : ∃ r, reduceGarbageV twoSided [false, true] false = some r ∧ normSq (r.vec fun q => q == 0) = 8 ∧
    normSq (r.vec fun _ => true) = 0 := by
  obtain ⟨r, h1, -, h3⟩ := c99_vector twoSided_can (gar := [false, true]) rfl
  have hg : gset [false, true] 2 = {1} := by
    rw [gset_succ_of (by rfl), gset_none]
    · rfl
    · intro q hq
      obtain rfl : q = 0 := by omega
      rfl
  refine ⟨r, h1, ?_, ?_⟩
  · rw [h3, hg, if_pos (by simp), ← insert_empty_eq, margin_insert (by simp), margin_empty, margin_empty]
    simp only [twoSided_vec]
    norm_num [Complex.normSq_apply]
  · rw [h3, hg, if_neg (by simp)]

/-- With `normalizeWeights` the entry is `√8`, without a phase. -/
example : ∃ r, reduceGarbageV twoSided [false, true] true = some r ∧ r.vec (fun q => q == 0) = ((√8 : ℝ) : ℂ) := by
  have hp : twoSided.p ≠ .term := by
    intro h
    have h0 := twoSided_can.2 (fun h0 => by
      have := twoSided_vec fun _ => false
      rw [Edge.vec, h0] at this
      simp at this)
    rw [h] at h0
    exact absurd h0 (by simp [VCan])
  obtain ⟨r, h1, -, h3⟩ := c99_vector_magnitudes_partial twoSided_can hp (gar := [false, true]) rfl
  have hg : gset [false, true] 2 = {1} := by
    rw [gset_succ_of (by rfl), gset_none]
    · rfl
    · intro q hq
      obtain rfl : q = 0 := by omega
      rfl
  refine ⟨r, h1, ?_⟩
  rw [h3, hg, if_pos (by simp), ← insert_empty_eq, margin_insert (by simp), margin_empty, margin_empty]
  simp only [twoSided_vec]
  norm_num [Complex.normSq_apply]

/-- The identity on one garbage qubit: both columns become `|0⟩`. -/
example (y : Bits) : ∃ r, reduceGarbageM .one [true] true false = some r ∧ normSq (r.mat 1 (fun _ => false) y) = 1 := by
  obtain ⟨r, h1, -, h3⟩ := c99_matrix (one_mecan 1) (gar := [true]) rfl
  have hg : gset [true] 1 = {0} := by
    rw [gset_succ_of (by rfl), gset_none]
    · rfl
    · intro q hq
      omega
  refine ⟨r, h1, ?_⟩
  rw [h3, hg, if_pos (by simp), ← insert_empty_eq, margin_insert (by simp), margin_empty, margin_empty]
  rcases hy : y 0 <;> simp [Edge.mat, mval_term, hy]

/-- **C99** fails for the documented value without `normalizeWeights`: of `|0⟩ (|0⟩ - |1⟩)` with qubit 1 garbage the entry of
`|01⟩` is -1, not `√(1² + 0²)`. -/
theorem c99_phases : ∃ r, VECan 2 (makeV 1 fun b => if b then .zero else ketMinus) ∧
    reduceGarbageV (makeV 1 fun b => if b then .zero else ketMinus) [false, true] false = some r ∧
    r.vec (fun q => q == 0) = -1 := by
  have hcan : VECan 1 ketMinus := makeV_can (fun b _ => rfl)
  have hv : ketMinus.vec (fun q => q == 0) = -1 := by
    rw [ketMinus, makeV_vec]; simp [Edge.vec, vval]
  have hw : ketMinus.w ≠ 0 := by
    intro h
    rw [Edge.vec, h, zero_mul] at hv
    norm_num at hv
  obtain ⟨w, c, hp, -, -⟩ := (hcan.2 hw).cases
  have hk : ketMinus = ⟨.node 0 w c, ketMinus.w⟩ := by rw [← hp]
  have e1 : (makeV 1 fun b => if b then .zero else ketMinus) =
      ⟨.node 1 (fun b => if b then 0 else 1) (fun b => if b then .term else ketMinus.p), ketMinus.w⟩ := by
    simp [makeV, vNormalize, hw]
  have hg : garV [false, true] 1 false (.node 1 (fun b => if b then 0 else 1) (fun b => if b then .term else ketMinus.p)) =
      some (makeV 1 fun b => if b then .zero else ⟨.node 0 w c, 1⟩) := by
    rw [garV, if_neg (by decide),
      collect_some (g := fun b => if b then .zero else ⟨.node 0 w c, 1⟩) (fun b => by
        cases b
        · simp [hp, garV, magW]
        · simp [magW]; rfl)]
    simp [isAnc, vaddMag, recV, magPre]
  have hf : firstAnc [false, true] = 1 := rfl
  refine ⟨(⟨(makeV 1 fun b => if b then .zero else ⟨.node 0 w c, 1⟩).p,
      ketMinus.w * (makeV 1 fun b => if b then .zero else (⟨.node 0 w c, 1⟩ : VEdge)).w⟩ : VEdge).lookup,
    makeV_can (n := 1) (fun b => ?_), ?_, ?_⟩
  · cases b
    · exact hcan.2
    · exact VOk.zero _
  · rw [e1, reduceGarbageV, if_neg (by simp)]
    simp only
    rw [hf, if_neg (by decide), if_neg (by decide), hg]
    rfl
  · rw [lookup_vec]
    have := makeV_vec 1 (fun b => if b then .zero else (⟨.node 0 w c, 1⟩ : VEdge)) fun q => q == 0
    rw [Edge.vec] at this ⊢
    simp only
    rw [mul_assoc, this]
    rw [hk] at hv
    simpa [Edge.vec] using hv

/-- **C99** fails for `normalizeWeights` and a multiple of the identity: the magnitude is not taken. -/
theorem c99_identity : reduceGarbageM ⟨.term, -1⟩ [false] true true = some ⟨.term, -1⟩ ∧
    MECan 1 (⟨.term, -1⟩ : MEdge) ∧ ∀ x, (⟨.term, -1⟩ : MEdge).mat 1 x x = -1 := by
  refine ⟨?_, ⟨fun _ => rfl, fun _ => trivial⟩, fun x => ?_⟩
  · simp [reduceGarbageM, padGar, isAnc]
  · simp [Edge.mat, mval_term]

/-- **C99.** With `normalizeWeights` the zero vector, the zero matrix, and states without qubits are undefined behaviour. -/
theorem c99_terminal (w : ℂ) (gar : List Bool) (reg : Bool) : reduceGarbageV ⟨.term, w⟩ gar true = none ∧
    reduceGarbageM .zero gar reg true = none := by
  constructor
  · simp [reduceGarbageV]
  · simp [reduceGarbageM]

end MQT.DD

namespace MQT.Sim

open MQT.IR MQT.DD MQT.Opt

/-- **C99.** Simulation of a circuit with garbage qubits (compare `c46_simulate_partial`): the squared magnitude of an entry is
the sum of those of the circuit's result over the values of the garbage qubits. -/
theorem c99_simulate_partial {n : ℕ} {init out : Perm} {σ : Equiv.Perm ℕ} (hp : Layout n init)
    (hσ : ∀ k v, init.lookup k = some v → σ k = v) (ht : Target init out) {ops : List (Op ℝ)}
    (hg : GoodL (fun q => ∃ v, init.lookup q = some v) ops) (γ : ℝ) {gar : List Bool} (hn : gar.length = n) {e : VEdge}
    (he : VECan n e) (ψ : State) (hψ : ∀ z, e.vec z = ψ (z ∘ σ)) :
    ∃ e' F τ, simulateG n ops init out γ gar e = .ok e' ∧ VECan n e' ∧ ActsL ops F ∧
      (∀ x ∈ out, τ x.1 = x.2) ∧ (∀ k, init.lookup k = none → τ k = σ k) ∧
      (∀ k v, init.lookup k = some v → ∃ k', init.lookup k' = some (τ k)) ∧
      ∀ z, normSq (e'.vec z) = if ∀ q ∈ gset gar n, z q = false then
        margin (gset gar n) (fun z => normSq (F ψ (z ∘ τ))) z else 0 := by
  obtain ⟨e', F, τ, h1, h2, h3, h4, h5, h6, h7⟩ := c46_simulate_partial hp hσ ht hg 0 he ψ hψ
  obtain ⟨r, r1, r2, r3⟩ := c99_vector h2 hn
  have hz : (⟨Real.cos γ, Real.sin γ⟩ : ℂ) ≠ 0 := polar_ne_zero γ
  have hs : normSq (⟨Real.cos γ, Real.sin γ⟩ : ℂ) = 1 := by
    rw [Complex.normSq_mk]
    nlinarith [Real.sin_sq_add_cos_sq γ]
  have e7 : (fun z => normSq (e'.vec z)) = fun z => normSq (F ψ (z ∘ τ)) := by
    funext z
    rw [h7, map_mul, Real.cos_zero, Real.sin_zero]
    norm_num [Complex.normSq_apply]
  rw [e7] at r3
  unfold simulateG
  simp only [h1, Res.bind, r1, ofOption]
  by_cases h0 : |γ| > 0
  · rw [if_pos h0]
    refine ⟨_, F, τ, rfl, ⟨fun h => r2.1 ((mul_eq_zero.1 h).resolve_right hz), fun h => r2.2 (left_ne_zero_of_mul h)⟩, h3, h4, h5, h6,
      fun z => ?_⟩
    rw [← r3]
    simp only [Edge.vec, map_mul, hs, mul_one]
  · rw [if_neg h0]
    exact ⟨_, F, τ, rfl, r2, h3, h4, h5, h6, r3⟩

/-- **C99.** Functionality of a circuit with garbage qubits (compare `c71_functionality_partial`). -/
theorem c99_functionality_partial {n : ℕ} (hn : n ≠ 0) {init out : Perm} {σ : Equiv.Perm ℕ}
    (hp : Layout n init) (hσ : ∀ k v, init.lookup k = some v → σ k = v) (ht : Target init out)
    {ops : List (Op ℝ)} (hg : GoodL (fun q => ∃ v, init.lookup q = some v) ops) {anc gar : List Bool}
    (ha : anc.length = n) (hr : gar.length = n) :
    ∃ r F τ, buildFunctionalityG n ops init out anc gar = .ok r ∧ MECan n r ∧ ActsL ops F ∧
      (∀ x ∈ out, τ x.1 = x.2) ∧ (∀ k, init.lookup k = none → τ k = σ k) ∧
      (∀ k v, init.lookup k = some v → ∃ k', init.lookup k' = some (τ k)) ∧
      ∀ x y, normSq (r.mat n x y) = if (∀ q ∈ gset gar n, x q = false) ∧ ∀ q < n, isAnc anc q = true → y q = false then
        margin (gset gar n) (fun z => normSq (F (fun x => if ∀ q < n, x (σ.symm q) = y q then 1 else 0) (z ∘ τ))) x
        else 0 := by
  obtain ⟨e, F, τ, h1, h2, h3, h4, h5, h6, h7⟩ := c71_functionality_partial hn hp hσ ht hg ha
  obtain ⟨r, r1, r2, r3⟩ := c99_matrix h2 hr
  refine ⟨r, F, τ, ?_, r2, h3, h4, h5, h6, fun x y => ?_⟩
  · unfold buildFunctionalityG
    simp only [if_neg hn, h1, Res.bind, r1, ofOption]
  · rw [r3]
    simp only [h7]
    by_cases hy : ∀ q < n, isAnc anc q = true → y q = false
    · simp only [if_pos hy, and_iff_left hy]
    · simp only [if_neg hy, if_neg (fun h : (_ ∧ _) => hy h.2), map_zero, margin, Finset.sum_const_zero, ite_self]

/-- **C99.** The recursive construction agrees for circuits with garbage qubits and at least two operations. -/
theorem c99_recursive_partial {n : ℕ} (hn : n ≠ 0) {init out : Perm} {σ : Equiv.Perm ℕ}
    (hp : Layout n init) (hσ : ∀ k v, init.lookup k = some v → σ k = v) (ht : Target init out)
    {ops : List (Op ℝ)} (hg : GoodL (fun q => ∃ v, init.lookup q = some v) ops) {anc gar : List Bool}
    (ha : anc.length = n) (hr : gar.length = n) (hsz : 2 ≤ ops.length) :
    ∃ r, buildFunctionalityG n ops init out anc gar = .ok r ∧ buildFunctionalityRecursiveG n ops init out anc gar = .ok r := by
  obtain ⟨e, h1, h2⟩ := c47_recursive_partial hn hp hσ ht hg ha hsz
  obtain ⟨_, _, _, h3, h4, -⟩ := c71_functionality_partial hn hp hσ ht hg ha
  rw [h1] at h3
  cases h3
  obtain ⟨r, r1, -, -⟩ := c99_matrix h4 hr
  refine ⟨r, ?_, ?_⟩
  · unfold buildFunctionalityG
    simp only [if_neg hn, h1, Res.bind, r1, ofOption]
  · unfold buildFunctionalityRecursiveG
    rw [if_neg hn, if_neg (by omega)]
    simp only [h2, Res.bind, r1, ofOption]

/-- Without garbage qubits the circuit is simulated as before. -/
example (n : ℕ) (ops : List (Op ℝ)) (init out : Perm) (e : VEdge) :
    simulateG n ops init out 0 (List.replicate n false) e = simulate n ops init out 0 e := by
  unfold simulateG
  cases simulate n ops init out 0 e <;> simp [Res.bind, reduceGarbageV, ofOption]

end MQT.Sim

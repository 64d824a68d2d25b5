/-
Properties of operation diagrams, permutations, simulation and functionality construction:
C45, C46, C47, C69, C70, C71.
-/
import Verif.Sim.Functionality
import Verif.DD.Measure

set_option autoImplicit false

noncomputable section

open Classical
open Function (update)

namespace MQT.Sim

open MQT.IR MQT.DD MQT.Opt

/-! ### C69: diagrams of operations -/

/-- **C69 (partial).** The diagram of a unitary operation under a permutation acts on states in the
layout of that permutation like the operation acts on the physical qubits.  (`OpOk`: the
operation has a meaning, its controls are distinct qubits, the permutation places its qubits on
the `n` levels, and it contains no controlled global phase — see
`c69_controlled_phase_ignored`.) -/
theorem c69_get_dd_partial {n : ℕ} {p : Perm} {σ : Equiv.Perm ℕ} (op : Op ℝ) (h : OpOk n p σ op) :
    ∃ e f, getDD n p false op = .ok e ∧ Acts op f ∧ MECan n e ∧
      ∀ ψ z, matVec n (e.mat n) (ren σ ψ) z = ren σ (f ψ) z := by
  obtain ⟨e, f, h1, h2, h3⟩ := getDD_spec op h
  exact ⟨e, f, h1, h2, h3.1, h3.2⟩

/-- **C69.** `getInverseDD` is the conjugate transpose of `getDD`. -/
theorem c69_inverse {n : ℕ} {p : Perm} {σ : Equiv.Perm ℕ} (op : Op ℝ) (h : OpOk n p σ op) :
    ∃ e e', getDD n p false op = .ok e ∧ getDD n p true op = .ok e' ∧ MECan n e' ∧
      ∀ x y, e'.mat n x y = (starRingEnd ℂ) (e.mat n y x) := by
  obtain ⟨e, f, h1, h2, h3⟩ := getDD_spec op h
  obtain ⟨k1, k2⟩ := c37_conjugate_transpose h3.1
  exact ⟨e, _, h1, getDD_adj op h h1, k1, k2⟩

/-- **C69.** Without a permutation (the default argument of `getDD`) the diagram of a gate is the
gate on its own qubits. -/
theorem c69_default_permutation {n : ℕ} (o : StdOp ℝ) (hw : o.WF) {f : State → State}
    (hf : o.denote = some f) (hn : ∀ q ∈ o.used, q < n) (hd : Distinct o.controls)
    (hg : o.type = .gphase → o.controls = ∅) :
    ∃ e, getDD n [] false (.std o) = .ok e ∧ MECan n e ∧
      ∀ ψ z, matVec n (e.mat n) ψ z = f ψ z := by
  have hok : OpOk n [] 1 (.std o) := by
    refine (?_ : StdOk n [] 1 o)
    exact ⟨hw, ⟨f, hf⟩, fun q hq => ⟨rfl, hn q hq⟩, hd, hg⟩
  obtain ⟨e, g, h1, h2, h3, h4⟩ := c69_get_dd_partial (.std o) hok
  have : g = f := by
    funext ψ
    have k := h2 ⟨ψ, fun _ => false, fun _ => false⟩
    rw [exec, hf] at k
    exact (congrArg Cfg.st (Option.some.inj k)).symm
  subst this
  exact ⟨e, h1, h3, h4⟩

example : ∃ e, getDD 2 [] false (.std { type := .x, targets := [1] }) = .ok e ∧ MECan 2 e := by
  obtain ⟨e, h1, h2, _⟩ := c69_default_permutation (n := 2)
    ({ type := .x, targets := [1] } : StdOp ℝ) ⟨by simp, by simp [ctrlQubits]⟩
    (StdOp.denote_single_of (q := 1) rfl rfl rfl)
    (by intro k hk; rw [StdOp.mem_used] at hk; simp [ctrlQubits] at hk; omega)
    (by intro c hc; simp at hc) (fun h => by cases h)
  exact ⟨e, h1, h2⟩

/-- The controlled global phase of angle `π` controlled by qubit 0. -/
def cphase : StdOp ℝ := { type := .gphase, params := [Real.pi], controls := {(0, true)}, targets := [] }

theorem cphase_denote : cphase.denote = some (ctl {(0, true)} (phase (-1))) := by
  rw [StdOp.denote_gphase rfl]
  have : (⟨Real.cos Real.pi, Real.sin Real.pi⟩ : ℂ) = -1 := by
    rw [Real.cos_pi, Real.sin_pi]
    apply Complex.ext <;> simp
  show some (ctl {(0, true)} (phase (⟨Real.cos Real.pi, Real.sin Real.pi⟩ : ℂ))) = _
  rw [this]

/-- **C69, disagreement.** `getDD` ignores the controls of a global phase: controlled by qubit 0
with angle `π`, it must leave `|0⟩` alone, but the diagram maps it to `-|0⟩`. -/
theorem c69_controlled_phase_ignored : ∃ e f, getDD 1 [(0, 0)] false (.std cphase) = .ok e ∧
    cphase.denote = some f ∧
    f (fun x => if x 0 = false then 1 else 0) (fun _ => false) = 1 ∧
    matVec 1 (e.mat 1) (fun x => if x 0 = false then 1 else 0) (fun _ => false) = -1 := by
  refine ⟨⟨.term, ⟨Real.cos Real.pi, Real.sin Real.pi⟩⟩, _, ?_, cphase_denote, ?_, ?_⟩
  · rw [getDD, getStd]; rfl
  · simp [ctl, Sat]
  · have : (⟨Real.cos Real.pi, Real.sin Real.pi⟩ : ℂ) = -1 := by
      rw [Real.cos_pi, Real.sin_pi]
      apply Complex.ext <;> simp
    rw [this]
    have h := represents_term 1 1 (w := -1) (by norm_num)
    have := h.2 (fun x => if x 0 = false then 1 else 0) (fun _ => false)
    have e1 : ren 1 (fun x : Bits => if x 0 = false then (1 : ℂ) else 0)
        = fun x => if x 0 = false then 1 else 0 := rfl
    rw [e1] at this
    rw [this]
    simp [ren, phase]

/-! ### Example operations -/

def xo (q : ℕ) : Op ℝ := .std { type := .x, targets := [q] }
def so (a b : ℕ) : Op ℝ := .std { type := .swap, targets := [a, b] }

theorem xo_good {D : ℕ → Prop} {q : ℕ} (h : D q) : Good D (xo q) := by
  unfold xo
  rw [Good]
  refine ⟨⟨by simp, by simp [ctrlQubits]⟩, ⟨_, StdOp.denote_single_of (q := q) rfl rfl rfl⟩, ?_, ?_,
    fun h => by cases h⟩
  · intro k hk
    rw [StdOp.mem_used] at hk
    simp [ctrlQubits] at hk
    rw [hk]; exact h
  · intro c hc; simp at hc

theorem so_good {D : ℕ → Prop} {a b : ℕ} (ha : D a) (hb : D b) (hab : a ≠ b) : Good D (so a b) := by
  unfold so
  rw [Good]
  refine ⟨⟨by simpa using hab, by simp [ctrlQubits]⟩,
    ⟨_, StdOp.denote_two_of (q0 := a) (q1 := b) rfl rfl rfl⟩, ?_, ?_, fun h => by cases h⟩
  · intro k hk
    rw [StdOp.mem_used] at hk
    simp [ctrlQubits] at hk
    rcases hk with rfl | rfl
    · exact ha
    · exact hb
  · intro c hc; simp at hc

/-! ### C45: changing permutations -/

/-- `from` is a layout on `n` levels. -/
structure Layout (n : ℕ) (p : Perm) : Prop where
  keys : (p.map Prod.fst).Nodup
  inj : ∀ a b v, p.lookup a = some v → p.lookup b = some v → a = b
  lt : ∀ k v, p.lookup k = some v → v < n

/-- `tgt` is an injective map between keys and values of `p`. -/
structure Target (p tgt : Perm) : Prop where
  keys : (tgt.map Prod.fst).Nodup
  vals : (tgt.map Prod.snd).Nodup
  key : ∀ x ∈ tgt, ∃ v, p.lookup x.1 = some v
  val : ∀ x ∈ tgt, ∃ k, p.lookup k = some x.2

/-- How a permutation has to change: `from` becomes `to` on the keys of `to`, and the levels are
moved by the bijection `τ` that maps the old place of every key to its new one. -/
structure Moved (p p' tgt : Perm) (τ : Equiv.Perm ℕ) : Prop where
  goal : ∀ x ∈ tgt, p'.lookup x.1 = some x.2
  move : ∀ k, p'.lookup k = (p.lookup k).map τ
  off : ∀ v, (∀ k, p.lookup k ≠ some v) → τ v = v

/-- **C45 (partial).** `changePermutation` on a state.  (If some target value is not a value of
`from`, see `c45_missing_value`; a missing key is undefined behaviour, `c45_missing_key`.) -/
theorem c45_state_partial {n : ℕ} {p tgt : Perm} {e : VEdge} (hp : Layout n p) (ht : Target p tgt)
    (he : VECan n e) (h0 : e.w ≠ 0) :
    ∃ p' e' τ, changePermutation n mvmul (fun e : VEdge => e.p = .term ∧ e.w = 0) e p tgt
        = .ok (p', e') ∧ VECan n e' ∧ Moved p p' tgt τ ∧ ∀ z, e'.vec z = e.vec (z ∘ τ) := by
  obtain ⟨p', e', τ, k1, k0, k2, k3, k4, k5, k6⟩ := changeLoop_spec (swapStep_vec n) tgt p e []
    hp.keys hp.inj hp.lt he (by simpa using ht.keys) (by simpa using ht.vals)
    (fun x hx => ⟨by obtain ⟨v, hv⟩ := ht.key x hx; rw [hv]; rfl, ht.val x hx⟩) (by simp)
  refine ⟨p', e', τ, ?_, k2, ⟨by simpa using k6, k4, k5⟩, k3⟩
  unfold changePermutation
  rw [if_neg (fun h => h0 h.2)]
  exact k1

/-- **C45 (partial).** `changePermutation` on the rows of a matrix. -/
theorem c45_left_partial {n : ℕ} {p tgt : Perm} {e : MEdge} (hp : Layout n p) (ht : Target p tgt)
    (he : MECan n e) (h0 : e.w ≠ 0) :
    ∃ p' e' τ, changePermutation n mmul (fun e : MEdge => e.p = .term ∧ e.w = 0) e p tgt
        = .ok (p', e') ∧ MECan n e' ∧ Moved p p' tgt τ ∧
        ∀ x y, e'.mat n x y = e.mat n (x ∘ τ) y := by
  obtain ⟨p', e', τ, k1, k0, k2, k3, k4, k5, k6⟩ := changeLoop_spec (swapStep_left n) tgt p e []
    hp.keys hp.inj hp.lt he (by simpa using ht.keys) (by simpa using ht.vals)
    (fun x hx => ⟨by obtain ⟨v, hv⟩ := ht.key x hx; rw [hv]; rfl, ht.val x hx⟩) (by simp)
  refine ⟨p', e', τ, ?_, k2, ⟨by simpa using k6, k4, k5⟩, k3⟩
  unfold changePermutation
  rw [if_neg (fun h => h0 h.2)]
  exact k1

/-- **C45 (partial).** `changePermutation` on the columns of a matrix (`regular = false`). -/
theorem c45_right_partial {n : ℕ} {p tgt : Perm} {e : MEdge} (hp : Layout n p) (ht : Target p tgt)
    (he : MECan n e) (h0 : e.w ≠ 0) :
    ∃ p' e' τ, changePermutation n (fun s e => mmul e s)
        (fun e : MEdge => e.p = .term ∧ e.w = 0) e p tgt = .ok (p', e') ∧ MECan n e' ∧
        Moved p p' tgt τ ∧ ∀ x y, e'.mat n x y = e.mat n x (y ∘ τ) := by
  obtain ⟨p', e', τ, k1, k0, k2, k3, k4, k5, k6⟩ := changeLoop_spec (swapStep_right n) tgt p e []
    hp.keys hp.inj hp.lt he (by simpa using ht.keys) (by simpa using ht.vals)
    (fun x hx => ⟨by obtain ⟨v, hv⟩ := ht.key x hx; rw [hv]; rfl, ht.val x hx⟩) (by simp)
  refine ⟨p', e', τ, ?_, k2, ⟨by simpa using k6, k4, k5⟩, k3⟩
  unfold changePermutation
  rw [if_neg (fun h => h0 h.2)]
  exact k1

/-- **C45.** The zero state is its own permutation; `from` stays as it was. -/
theorem c45_zero (n : ℕ) (p tgt : Perm) :
    changePermutation n mvmul (fun e : VEdge => e.p = .term ∧ e.w = 0) .zero p tgt
      = .ok (p, .zero) := by
  unfold changePermutation
  rw [if_pos ⟨rfl, rfl⟩]

/-- **C45, disagreement.** If the target value 2 is not a value of `from`, the code silently takes
the key 0 instead: `from` afterwards claims that qubit 1 sits on level 2, but its contents were
moved to level 0. -/
theorem c45_missing_value {e : VEdge} (he : VECan 3 e) (h0 : e.w ≠ 0) :
    ∃ e', changePermutation 3 mvmul (fun e : VEdge => e.p = .term ∧ e.w = 0) e
        [(0, 0), (1, 1)] [(1, 2)] = .ok ([(0, 1), (1, 2)], e') ∧
      ∀ z, e'.vec z = e.vec (z ∘ Equiv.swap 1 0) := by
  obtain ⟨s, e', h1, h2, h3, h4⟩ := (swapStep_vec 3).step 1 0 (by omega) (by omega) (by omega) e he
  refine ⟨e', ?_, h4⟩
  unfold changePermutation
  rw [if_neg (fun h => h0 h.2), changeLoop]
  have hk : Perm.keyOf [(0, 0), (1, 1)] 2 = 0 := by simp [Perm.keyOf]
  have l1 : ([(0, 0), (1, 1)] : Perm).lookup 1 = some 1 := rfl
  have l0 : ([(0, 0), (1, 1)] : Perm).lookup 0 = some 0 := rfl
  rw [l1]
  simp only
  rw [if_neg (by omega), hk, l0]
  simp only [h1, h2]
  rw [changeLoop]
  simp [Perm.set]

/-- **C45, disagreement.** A key of `to` that `from` lacks should lead to an exception, but building
its message dereferences `from.end()`. -/
theorem c45_missing_key {e : VEdge} (h0 : e.w ≠ 0) :
    changePermutation 3 mvmul (fun e : VEdge => e.p = .term ∧ e.w = 0) e [(0, 0)] [(1, 1)]
      = .ub := by
  unfold changePermutation
  rw [if_neg (fun h => h0 h.2), changeLoop]
  rfl

/-- Three qubits rotated. -/
example : ∃ p' e' τ, changePermutation 3 mvmul (fun e : VEdge => e.p = .term ∧ e.w = 0)
      (collapsed 3 fun q => decide (q = 0)) [(0, 0), (1, 1), (2, 2)] [(0, 1), (1, 2), (2, 0)]
        = .ok (p', e') ∧ p'.lookup 0 = some 1 ∧
      e'.vec (fun q => decide (q = 1)) = 1 ∧ Moved [(0, 0), (1, 1), (2, 2)] p'
        [(0, 1), (1, 2), (2, 0)] τ := by
  obtain ⟨h1, h2⟩ := collapsed_spec 3 (fun q => decide (q = 0))
  have h0 : (collapsed 3 fun q => decide (q = 0)).w ≠ 0 := by
    intro h
    have := h2 (fun q => decide (q = 0))
    unfold Edge.vec at this
    rw [h] at this
    simp at this
  have hl : ∀ k v, ([(0, 0), (1, 1), (2, 2)] : Perm).lookup k = some v → v = k ∧ v < 3 := by
    intro k v hk
    have := mem_of_lookup hk
    simp at this
    omega
  obtain ⟨p', e', τ, k1, k2, k3, k4⟩ := c45_state_partial (n := 3) (p := [(0, 0), (1, 1), (2, 2)])
    (tgt := [(0, 1), (1, 2), (2, 0)])
    ⟨by decide, fun a b v ha hb => by rw [← (hl a v ha).1, ← (hl b v hb).1], fun k v h => (hl k v h).2⟩
    ⟨by decide, by decide, by simp [List.lookup], by
      intro x hx
      simp at hx
      rcases hx with rfl | rfl | rfl
      · exact ⟨1, rfl⟩
      · exact ⟨2, rfl⟩
      · exact ⟨0, rfl⟩⟩ h1 h0
  have m0 : τ 0 = 1 := by
    have a := k3.goal (0, 1) (by simp)
    rw [k3.move] at a
    simpa [List.lookup] using a
  have m1 : τ 1 = 2 := by
    have a := k3.goal (1, 2) (by simp)
    rw [k3.move] at a
    simpa [List.lookup] using a
  have m2 : τ 2 = 0 := by
    have a := k3.goal (2, 0) (by simp)
    rw [k3.move] at a
    simpa [List.lookup] using a
  refine ⟨p', e', τ, k1, k3.goal (0, 1) (by simp), ?_, k3⟩
  rw [k4, h2, if_pos]
  intro q hq
  have : q = 0 ∨ q = 1 ∨ q = 2 := by omega
  rcases this with rfl | rfl | rfl <;> simp [m0, m1, m2]

/-! ### C46: simulation -/

theorem lay_of {n : ℕ} {p : Perm} {σ : Equiv.Perm ℕ} (hp : Layout n p)
    (hσ : ∀ k v, p.lookup k = some v → σ k = v) :
    Lay (fun k => ∃ v, p.lookup k = some v) (fun v => ∃ k, p.lookup k = some v) σ p σ :=
  ⟨hp.keys, hσ, fun _ => Iff.rfl, fun _ => Iff.rfl, fun _ _ => rfl⟩

/-- **C46 (partial).** Simulating a unitary circuit: if the input holds the state `ψ` of the
physical qubits in the initial layout (extended to all indices by `σ`), the result holds the
state `F ψ` obtained by applying all operations, including the SWAPs, in an arrangement `τ` of
the qubits that agrees with the output permutation, multiplied by the global phase.
(Missing: garbage qubits; operations with a controlled global phase, for which the property
fails, `c46_controlled_phase_ignored`.) -/
theorem c46_simulate_partial {n : ℕ} {init out : Perm} {σ : Equiv.Perm ℕ} (hp : Layout n init)
    (hσ : ∀ k v, init.lookup k = some v → σ k = v) (ht : Target init out) {ops : List (Op ℝ)}
    (hg : GoodL (fun q => ∃ v, init.lookup q = some v) ops) (γ : ℝ) {e : VEdge} (he : VECan n e)
    (ψ : State) (hψ : ∀ z, e.vec z = ψ (z ∘ σ)) :
    ∃ e' F τ, simulate n ops init out γ e = .ok e' ∧ VECan n e' ∧ ActsL ops F ∧
      (∀ x ∈ out, τ x.1 = x.2) ∧ (∀ k, init.lookup k = none → τ k = σ k) ∧
      (∀ k v, init.lookup k = some v → ∃ k', init.lookup k' = some (τ k)) ∧
      ∀ z, e'.vec z = ⟨Real.cos γ, Real.sin γ⟩ * F ψ (z ∘ τ) := by
  obtain ⟨e', F, τ, h1, h2, h3, h4, h5, h6, h7⟩ := simulate_spec (n := n) (σ := σ)
    (fun v ⟨k, hk⟩ => hp.lt k v hk) γ hg (lay_of hp hσ) ht.keys ht.vals
    (fun x hx => ⟨ht.key x hx, ht.val x hx⟩) he ψ hψ
  refine ⟨e', F, τ, h1, h2, h3, h4, fun k hk => h5 k ?_, fun k v hk => h6 k ⟨v, hk⟩, h7⟩
  rintro ⟨v, hv⟩
  rw [hk] at hv
  cases hv

/-- **C46, disagreement.** The controlled global phase multiplies the state by `-1` although its
control is 0. -/
theorem c46_controlled_phase_ignored : ∃ e' f,
    simulate 1 [.std cphase] [(0, 0)] [(0, 0)] 0 (collapsed 1 fun _ => false) = .ok e' ∧
    ActsL [.std cphase] f ∧ f ((collapsed 1 fun _ => false).vec) (fun _ => false) = 1 ∧
    e'.vec (fun _ => false) = -1 := by
  obtain ⟨h1, h2⟩ := collapsed_spec 1 (fun _ => false)
  have hpi : (⟨Real.cos Real.pi, Real.sin Real.pi⟩ : ℂ) = -1 := by
    rw [Real.cos_pi, Real.sin_pi]
    apply Complex.ext <;> simp
  have hd : getDD 1 [(0, 0)] false (.std cphase) = .ok ⟨.term, -1⟩ := by
    rw [← hpi, getDD, getStd]; rfl
  have hr := represents_term 1 1 (w := -1) (by norm_num)
  obtain ⟨e', k1, k2, k3⟩ := mvmul_spec (n := 1) (x := ⟨.term, -1⟩) hr.1.2 h1.2
  have hsw : isSwap (.std cphase) = none := by
    simp only [isSwap]
    rw [if_neg]
    rintro ⟨h, _⟩
    cases h
  have hval : e'.vec (fun _ => false) = -1 := by
    rw [k3]
    have := hr.2 ((collapsed 1 fun _ => false).vec) (fun _ => false)
    have e1 : ren 1 (collapsed 1 fun _ => false).vec = (collapsed 1 fun _ => false).vec := rfl
    rw [e1] at this
    rw [this]
    simp [ren, phase, h2]
  refine ⟨e', _, ?_, actsL_singleton (f := ctl {(0, true)} (phase (-1))) (fun c => by
    rw [exec, cphase_denote]; rfl), ?_, hval⟩
  · unfold simulate
    rw [simLoop, hsw]
    simp only [hd, Res.bind, k1, simLoop]
    have : changePermutation 1 mvmul (fun e : VEdge => e.p = .term ∧ e.w = 0) e' [(0, 0)] [(0, 0)]
        = .ok ([(0, 0)], e') := by
      unfold changePermutation
      split_ifs
      · rfl
      · rw [changeLoop]
        simp only [List.lookup, beq_self_eq_true, if_true]
        rw [changeLoop]
    rw [this]
    simp
  · simp [ctl, Sat, h2]

/-- `x 0; swap 0 1` on `|00⟩` ends in the state with qubit 1 set. -/
example : ∃ e', simulate 2 [xo 0, so 0 1] [(0, 0), (1, 1)] [(0, 0), (1, 1)] 0
    (collapsed 2 fun _ => false) = .ok e' ∧ e'.vec (fun q => decide (q = 1)) = 1 := by
  obtain ⟨h1, h2⟩ := collapsed_spec 2 (fun _ => false)
  have hl : ∀ k v, ([(0, 0), (1, 1)] : Perm).lookup k = some v → v = k ∧ v < 2 := by
    intro k v hk
    have := mem_of_lookup hk
    simp at this
    omega
  obtain ⟨e', F, τ, k1, k2, k3, k4, k5, k6, k7⟩ := c46_simulate_partial (n := 2) (σ := 1)
    (init := [(0, 0), (1, 1)]) (out := [(0, 0), (1, 1)])
    ⟨by decide, fun a b v ha hb => by rw [← (hl a v ha).1, ← (hl b v hb).1], fun k v h => (hl k v h).2⟩
    (fun k v h => (hl k v h).1.symm)
    ⟨by decide, by decide, by simp [List.lookup], by
      intro x hx
      simp at hx
      rcases hx with rfl | rfl
      · exact ⟨0, rfl⟩
      · exact ⟨1, rfl⟩⟩
    (ops := [xo 0, so 0 1]) (by
      rw [goodL_iff]
      intro o ho
      simp at ho
      rcases ho with rfl | rfl
      · exact xo_good ⟨0, rfl⟩
      · exact so_good ⟨0, rfl⟩ ⟨1, rfl⟩ (by omega)) 0 h1 _ (fun z => rfl)
  refine ⟨e', k1, ?_⟩
  have hF : ActsL [xo 0, so 0 1]
      (fun ψ => pull (swapMap 0 1) (app1 (mat1 0 1 1 0) 0 ψ)) := by
    apply actsL_cons
    · intro c
      rw [xo, exec, StdOp.denote_single_of (q := 0) (M := mat1 0 1 1 0) rfl rfl rfl, ctl_empty]
      rfl
    · apply actsL_singleton
      intro c
      rw [so, exec, swap_denote (a := 0) (b := 1) rfl rfl rfl]
      rfl
  rw [k7, k3.unique hF]
  have t0 : τ 0 = 0 := k4 (0, 0) (by simp)
  have t1 : τ 1 = 1 := k4 (1, 1) (by simp)
  have hz : ∀ q < 2, ((fun q => decide (q = 1)) ∘ τ : Bits) q = decide (q = 1) := by
    intro q hq
    have : q = 0 ∨ q = 1 := by omega
    rcases this with rfl | rfl <;> simp [t0, t1]
  rw [Real.cos_zero, Real.sin_zero]
  have h10 : (⟨1, 0⟩ : ℂ) = 1 := rfl
  rw [h10, one_mul]
  set w : Bits := swapMap 0 1 ((fun q => decide (q = 1)) ∘ τ) with hw
  have w0 : w 0 = true := by
    rw [hw]; unfold swapMap
    rw [Function.update_of_ne (by omega), Function.update_self, hz 1 (by omega)]; rfl
  have w1 : w 1 = false := by
    rw [hw]; unfold swapMap
    rw [Function.update_self, hz 0 (by omega)]; rfl
  show app1 (mat1 0 1 1 0) 0 _ w = 1
  have hv : (collapsed 2 fun _ => false).vec (update w 0 false) = 1 := by
    rw [h2, if_pos]
    intro q hq
    have : q = 0 ∨ q = 1 := by omega
    rcases this with rfl | rfl
    · rw [Function.update_self]
    · rw [Function.update_of_ne (by omega), w1]
  have hc : (collapsed 2 fun _ => false).vec ∘ (fun z => z ∘ (1 : Equiv.Perm ℕ))
      = (collapsed 2 fun _ => false).vec := rfl
  unfold app1
  rw [w0, Fintype.sum_bool]
  simp only [mat1]
  simp [hv]

/-! ### C71: functionality -/

/-- **C71 (partial).** `buildFunctionality`: the column `y` of the matrix is the result of the
circuit on the basis state that holds `y` in the initial layout, arranged according to the output
permutation, if all ancillary qubits are 0 in `y`, and zero otherwise.  (Missing: garbage qubits;
controlled global phases, see `c69_controlled_phase_ignored`; the global phase of the circuit is
ignored by the code.) -/
theorem c71_functionality_partial {n : ℕ} (hn : n ≠ 0) {init out : Perm} {σ : Equiv.Perm ℕ}
    (hp : Layout n init) (hσ : ∀ k v, init.lookup k = some v → σ k = v) (ht : Target init out)
    {ops : List (Op ℝ)} (hg : GoodL (fun q => ∃ v, init.lookup q = some v) ops) {anc : List Bool}
    (ha : anc.length = n) :
    ∃ r F τ, buildFunctionality n ops init out anc = .ok r ∧ MECan n r ∧ ActsL ops F ∧
      (∀ x ∈ out, τ x.1 = x.2) ∧ (∀ k, init.lookup k = none → τ k = σ k) ∧
      (∀ k v, init.lookup k = some v → ∃ k', init.lookup k' = some (τ k)) ∧
      ∀ x y, r.mat n x y = if ∀ q < n, isAnc anc q = true → y q = false then
        F (fun x => if ∀ q < n, x (σ.symm q) = y q then 1 else 0) (x ∘ τ) else 0 := by
  obtain ⟨r, F, τ, h1, h2, h3, h4, h5, h6⟩ := functionality_spec (n := n) (σ := σ) (anc := anc)
    (fun v ⟨k, hk⟩ => hp.lt k v hk) hn hg (lay_of hp hσ) ht.keys ht.vals
    (fun x hx => ⟨ht.key x hx, ht.val x hx⟩) ha
  refine ⟨r, F, τ, h1, h2, h3, h5, fun k hk => h4.off k ?_, fun k v hk => ?_, h6⟩
  · rintro ⟨v, hv⟩
    rw [hk] at hv
    cases hv
  · obtain ⟨v', hv'⟩ := (h4.dom k).2 ⟨v, hk⟩
    rw [h4.ext k v' hv']
    exact (h4.rng v').1 ⟨k, hv'⟩

/-! ### C47: recursive construction -/

/-- **C47 (partial).** The recursive construction returns the same diagram as the iterative one for
circuits with at least two operations.  (Missing: one operation, where the property fails, see
`c47_single_operation`; garbage qubits; controlled global phases.) -/
theorem c47_recursive_partial {n : ℕ} (hn : n ≠ 0) {init out : Perm} {σ : Equiv.Perm ℕ}
    (hp : Layout n init) (hσ : ∀ k v, init.lookup k = some v → σ k = v) (ht : Target init out)
    {ops : List (Op ℝ)} (hg : GoodL (fun q => ∃ v, init.lookup q = some v) ops) {anc : List Bool}
    (ha : anc.length = n) (hsz : 2 ≤ ops.length) :
    ∃ r, buildFunctionality n ops init out anc = .ok r ∧
      buildFunctionalityRecursive n ops init out anc = .ok r := by
  have h := functionality_agree (n := n) (σ := σ) (anc := anc)
    (fun v ⟨k, hk⟩ => hp.lt k v hk) hn hg (lay_of hp hσ) ht.keys ht.vals
    (fun x hx => ⟨ht.key x hx, ht.val x hx⟩) ha hsz
  obtain ⟨r, _, _, h1, _⟩ := c71_functionality_partial hn hp hσ ht hg ha
  exact ⟨r, h1, by rw [h, h1]⟩

/-- **C47, disagreement.** For a single operation the recursive construction returns right after
`getDD`, without the final reduction of ancillary qubits: for an X gate on one ancillary qubit the
entry ⟨0|·|1⟩ is 1 instead of 0. -/
theorem c47_single_operation : ∃ r r',
    buildFunctionality 1 [xo 0] [(0, 0)] [(0, 0)] [true] = .ok r ∧
    buildFunctionalityRecursive 1 [xo 0] [(0, 0)] [(0, 0)] [true] = .ok r' ∧
    r.mat 1 (fun _ => false) (fun _ => true) = 0 ∧
    r'.mat 1 (fun _ => false) (fun _ => true) = 1 := by
  have hl : ∀ k v, ([(0, 0)] : Perm).lookup k = some v → v = k ∧ v < 1 := by
    intro k v hk
    have := mem_of_lookup hk
    simp at this
    omega
  have hp : Layout 1 [(0, 0)] :=
    ⟨by decide, fun a b v ha hb => by rw [← (hl a v ha).1, ← (hl b v hb).1], fun k v h => (hl k v h).2⟩
  have hg : GoodL (fun q => ∃ v, ([(0, 0)] : Perm).lookup q = some v) [xo 0] := by
    rw [goodL_iff]
    intro o ho
    simp at ho
    subst ho
    exact xo_good ⟨0, rfl⟩
  obtain ⟨r, F, τ, k1, k2, k3, k4, k5, k6, k7⟩ := c71_functionality_partial (n := 1) (by omega)
    (σ := 1) (anc := [true]) hp (fun k v h => (hl k v h).1.symm) (out := [(0, 0)])
    ⟨by decide, by decide, by simp [List.lookup], by
      intro x hx
      simp at hx
      subst hx
      exact ⟨0, rfl⟩⟩ hg rfl
  obtain ⟨r', f, m1, m2, m3, m4⟩ := c69_get_dd_partial (xo 0)
    (Good.ok (n := 1) (lay_of (σ := 1) hp fun k v h => (hl k v h).1.symm)
      (fun v ⟨k, hk⟩ => hp.lt k v hk) _ (by rw [GoodL] at hg; exact hg.1))
  refine ⟨r, r', k1, ?_, ?_, ?_⟩
  · unfold buildFunctionalityRecursive
    rw [if_neg (by omega)]
    exact m1
  · rw [k7, if_neg]
    intro h
    have := h 0 (by omega) rfl
    cases this
  · have hf : ActsL [xo 0] (app1 (mat1 0 1 1 0) 0) := by
      apply actsL_singleton
      intro c
      rw [xo, exec, StdOp.denote_single_of (q := 0) (M := mat1 0 1 1 0) rfl rfl rfl, ctl_empty]
      rfl
    have hff := (actsL_singleton m2).unique hf
    subst hff
    have h := m4 (fun x => if x 0 = true then 1 else 0) (fun _ => false)
    have e1 : ren 1 (fun x : Bits => if x 0 = true then (1 : ℂ) else 0)
        = fun x => if x 0 = true then 1 else 0 := rfl
    rw [e1] at h
    have e2 : ren 1 (app1 (mat1 0 1 1 0) 0 (fun x : Bits => if x 0 = true then (1 : ℂ) else 0))
        (fun _ => false) = 1 := by
      show app1 (mat1 0 1 1 0) 0 _ (fun _ => false) = 1
      unfold app1
      rw [Fintype.sum_bool]
      simp [mat1]
    rw [e2] at h
    unfold matVec at h
    simp only [sumB] at h
    simp at h
    rw [← h]
    apply mat_congr r' 1 (fun q _ => rfl)
    intro q hq
    obtain rfl : q = 0 := by omega
    simp

/-- **C47, disagreement.** The empty circuit is undefined behaviour for the recursive construction
(conversion of `log2(0)`), while the iterative one returns the identity. -/
theorem c47_empty (n : ℕ) (hn : n ≠ 0) (init out : Perm) (anc : List Bool) :
    buildFunctionalityRecursive n [] init out anc = .ub := by
  unfold buildFunctionalityRecursive
  rw [if_neg hn]

/-- Three operations, one of them a virtual SWAP. -/
example : ∃ r, buildFunctionality 2 [xo 0, so 0 1, xo 1] [(0, 0), (1, 1)] [(0, 1), (1, 0)]
      [false, true] = .ok r ∧
    buildFunctionalityRecursive 2 [xo 0, so 0 1, xo 1] [(0, 0), (1, 1)] [(0, 1), (1, 0)]
      [false, true] = .ok r := by
  have hl : ∀ k v, ([(0, 0), (1, 1)] : Perm).lookup k = some v → v = k ∧ v < 2 := by
    intro k v hk
    have := mem_of_lookup hk
    simp at this
    omega
  exact c47_recursive_partial (n := 2) (by omega) (σ := 1)
    ⟨by decide, fun a b v ha hb => by rw [← (hl a v ha).1, ← (hl b v hb).1], fun k v h => (hl k v h).2⟩
    (fun k v h => (hl k v h).1.symm)
    ⟨by decide, by decide, by simp [List.lookup], by
      intro x hx
      simp at hx
      rcases hx with rfl | rfl
      · exact ⟨1, rfl⟩
      · exact ⟨0, rfl⟩⟩
    (by
      rw [goodL_iff]
      intro o ho
      simp at ho
      rcases ho with rfl | rfl | rfl
      · exact xo_good ⟨0, rfl⟩
      · exact so_good ⟨0, rfl⟩ ⟨1, rfl⟩ (by omega)
      · exact xo_good ⟨1, rfl⟩) rfl (by simp)

/-! ### C70: ancillary qubits -/

/-- **C70.** `reduceAncillae` keeps exactly the columns (for `regular = false`: rows) whose
ancillary bits are all 0 and zeroes all others. -/
theorem c70_reduce_ancillae {n : ℕ} {e : MEdge} (he : MECan n e) {anc : List Bool}
    (hn : anc.length = n) (reg : Bool) :
    ∃ r, reduceAncillae e anc reg = some r ∧ MECan n r ∧ ∀ x y,
      r.mat n x y = if ∀ q < n, isAnc anc q = true → (if reg then y q else x q) = false
        then e.mat n x y else 0 := by
  obtain ⟨r, h1, h2, h3⟩ := reduceAncillae_spec he hn reg
  refine ⟨r, h1, h2, fun x y => ?_⟩
  rw [h3]
  exact if_congr ⟨fun h q hq => h q (by omega) hq, fun h q _ hq => h q hq⟩ rfl rfl

/-- **C70.** `createInitialMatrix` is the projector onto the ancillary qubits being 0. -/
theorem c70_initial_matrix (anc : List Bool) :
    ∃ r, createInitialMatrix anc = some r ∧ MECan anc.length r ∧ ∀ x y,
      r.mat anc.length x y = if (∀ q < anc.length, isAnc anc q = true → y q = false) ∧
        ∀ q < anc.length, x q = y q then 1 else 0 := createInitialMatrix_spec anc

/-- Reducing twice is the same as reducing once. -/
theorem c70_idempotent {n : ℕ} {e r : MEdge} (he : MECan n e) {anc : List Bool}
    (hn : anc.length = n) (reg : Bool) (hr : reduceAncillae e anc reg = some r) :
    reduceAncillae r anc reg = some r := by
  obtain ⟨r', h1, h2, h3⟩ := c70_reduce_ancillae he hn reg
  rw [hr] at h1
  obtain rfl := Option.some.inj h1
  obtain ⟨r', k1, k2, k3⟩ := c70_reduce_ancillae h2 hn reg
  rw [k1]
  congr 1
  apply mecan_inj k2 h2
  intro x y
  rw [k3, h3]
  split_ifs <;> rfl

/-- The middle of three qubits is ancillary. -/
example : ∃ r, createInitialMatrix [false, true, false] = some r ∧
    r.mat 3 (fun _ => true) (fun _ => true) = 0 ∧
    r.mat 3 (fun q => decide (q = 0)) (fun q => decide (q = 0)) = 1 := by
  obtain ⟨r, h1, h2, h3⟩ := c70_initial_matrix [false, true, false]
  refine ⟨r, h1, ?_, ?_⟩
  · have := h3 (fun _ => true) (fun _ => true)
    rw [if_neg] at this
    · exact this
    · rintro ⟨h, _⟩
      have := h 1 (by simp) rfl
      cases this
  · have := h3 (fun q => decide (q = 0)) (fun q => decide (q = 0))
    rw [if_pos] at this
    · exact this
    · refine ⟨fun q hq ha => ?_, fun _ _ => rfl⟩
      have : q = 0 ∨ q = 1 ∨ q = 2 := by simp at hq; omega
      rcases this with rfl | rfl | rfl
      · cases ha
      · rfl
      · cases ha

end MQT.Sim

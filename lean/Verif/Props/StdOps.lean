import Verif.IR.OpEquals

/-! C19, C20, C22, C31, C65: inversion, commutation, comparison of operations and circuits. -/

set_option autoImplicit false
set_option linter.unusedSectionVars false

namespace MQT.IR

open Real OpType

/-! ### C19 -/

/-- Types for which `StandardOperation::invert` has a rule. -/
def invertible (ty : OpType) : Bool :=
  ty.isSingleQubitGate || ty.isTwoQubitGate || decide (ty = gphase) || decide (ty = barrier)

/-- **C19.** Every gate that has a meaning can be inverted, and the inverted operation undoes it
from both sides, whatever the parameters, controls and targets. -/
theorem c19_invert_undoes (o : StdOp ℝ) (wf : o.WF) (f : State → State) (hf : o.denote = some f) :
    ∃ o' g, o.invert = some o' ∧ o'.denote = some g ∧ (∀ ψ, g (f ψ) = ψ) ∧ ∀ ψ, f (g ψ) = ψ := by
  have h : ∃ o', o.invert = some o' := by
    obtain ⟨ty, ps, cs, ts⟩ := o
    rcases StdOp.denote_cases hf with ⟨hb, -⟩ | ⟨hg, θ, h1, -⟩ | ⟨hs, q, M, h1, h2, -⟩ |
      ⟨ht, q0, q1, M, h1, h2, -⟩
    · simp only at hb; subst hb; exact ⟨_, rfl⟩
    · simp only at hg h1; subst hg
      cases ps with
      | nil => simp at h1
      | cons a l => exact ⟨_, rfl⟩
    · simp only at hs h1 h2
      rcases ps with _ | ⟨a, _ | ⟨b, _ | ⟨c, l⟩⟩⟩ <;> revert h2 <;> cases ty <;> intro h2 <;>
        first | exact ⟨_, rfl⟩ | cases h2
    · simp only at ht h1 h2
      subst h1
      rcases ps with _ | ⟨a, l⟩ <;> revert h2 <;> cases ty <;> intro h2 <;>
        first | exact ⟨_, rfl⟩ | cases h2
  obtain ⟨o', h⟩ := h
  obtain ⟨g, h1, h2, h3⟩ := (StdOp.invert_isInv h).undo wf hf
  exact ⟨o', g, h, h1, h2, h3⟩

/-- **C19.** The separately written inversion of the simulator (`getInverseDD`) undoes the gate
too (barriers and global phases are handled elsewhere there). -/
theorem c19_simulator_inverse_undoes (o : StdOp ℝ) (wf : o.WF) (f : State → State)
    (hf : o.denote = some f) (hb : o.type ≠ barrier) (hg : o.type ≠ gphase) :
    ∃ o' g, o.ddInvert = some o' ∧ o'.denote = some g ∧ (∀ ψ, g (f ψ) = ψ) ∧ ∀ ψ, f (g ψ) = ψ := by
  have h : ∃ o', o.ddInvert = some o' := by
    obtain ⟨ty, ps, cs, ts⟩ := o
    rcases StdOp.denote_cases hf with ⟨hb', -⟩ | ⟨hg', θ, h1, -⟩ | ⟨hs, q, M, h1, h2, -⟩ |
      ⟨ht, q0, q1, M, h1, h2, -⟩
    · exact absurd hb' hb
    · exact absurd hg' hg
    · simp only at hs h1 h2
      rcases ps with _ | ⟨a, _ | ⟨b, _ | ⟨c, l⟩⟩⟩ <;> revert h2 <;> cases ty <;> intro h2 <;>
        first
          | exact ⟨_, rfl⟩
          | (cases h2; done)
          | (simp only [StdOp.ddInvert]; rw [show OpType.flipInv _ = some _ from rfl]; exact ⟨_, rfl⟩)
    · simp only at ht h1 h2
      subst h1
      rcases ps with _ | ⟨a, l⟩ <;> revert h2 <;> cases ty <;> intro h2 <;>
        first
          | exact ⟨_, rfl⟩
          | (cases h2; done)
          | (simp only [StdOp.ddInvert]; rw [show OpType.flipInv _ = some _ from rfl]; exact ⟨_, rfl⟩)
  obtain ⟨o', h⟩ := h
  obtain ⟨g, h1, h2, h3⟩ := (StdOp.ddInvert_isInv h).undo wf hf
  exact ⟨o', g, h, h1, h2, h3⟩

/-- A doubly controlled `u2` gate is inverted to a `u2` gate with new angles. -/
example : StdOp.invert ⟨u2, [1, 2], {(0, true), (3, false)}, [2]⟩ =
    some ⟨u2, [-2 + π, -1 - π], {(0, true), (3, false)}, [2]⟩ := rfl

example : StdOp.invert ⟨dcx, [], {(4, true)}, [0, 1]⟩ = some ⟨dcx, [], {(4, true)}, [1, 0]⟩ ∧
    StdOp.ddInvert ⟨tdg, [], ∅, [7]⟩ = some ⟨t, [], ∅, [7]⟩ := ⟨rfl, rfl⟩

/-! ### C20 -/

/-- **C20.** If two standard operations are reported to commute at every qubit they share, they
commute on every state. -/
theorem c20_commutes_sound (o1 o2 : StdOp ℝ) (w1 : o1.WF) (w2 : o2.WF) (f g : State → State)
    (hf : o1.denote = some f) (hg : o2.denote = some g)
    (hc : ∀ q, q ∈ o1.used → q ∈ o2.used →
      @StdOp.commutesAt ℝ (Classical.decEq ℝ) o1 o2 q = true) :
    ∀ ψ, f (g ψ) = g (f ψ) :=
  StdOp.commutes_sound w1 w2 hf hg hc

/-- **C20.** The same for arbitrarily nested compound operations. -/
theorem c20_compound_commutes_sound (a b : UOp ℝ) (wa : a.WF) (wb : b.WF) (f g : State → State)
    (hf : a.denote = some f) (hg : b.denote = some g)
    (hc : ∀ q, a.uses q → b.uses q → @UOp.commutesAt ℝ (Classical.decEq ℝ) a b q = true) :
    ∀ ψ, f (g ψ) = g (f ψ) :=
  UOp.commutes_sound wa wb hf hg hc

/-- The test accepts `cx(0→1)` against `z(0)` and `cx(0→2)`, and rejects `x(0)` and
`cx(1→2)`. -/
example :
    let cx : ℕ → ℕ → StdOp ℕ := fun c t => ⟨x, [], {(c, true)}, [t]⟩
    StdOp.commutesAt (cx 0 1) ⟨z, [], ∅, [0]⟩ 0 = true ∧
    StdOp.commutesAt (cx 0 1) (cx 0 2) 0 = true ∧
    StdOp.commutesAt (cx 0 1) ⟨x, [], ∅, [0]⟩ 0 = false ∧
    StdOp.commutesAt (cx 0 1) (cx 1 2) 1 = false := by decide

/-! ### C22 -/

/-- **C22.** The inverted operation list (standard and nested compound operations) undoes the
circuit from both sides. -/
theorem c22_invert_ops_undoes (l l' : List (UOp ℝ)) (f : State → State) (wf : ∀ o ∈ l, o.WF)
    (h : UOp.invertL l = some l') (hf : UOp.denoteL l = some f) :
    ∃ g, UOp.denoteL l' = some g ∧ (∀ ψ, g (f ψ) = ψ) ∧ ∀ ψ, f (g ψ) = ψ :=
  UOp.invertL_undo l l' f wf h hf

/-- Inverting the whole circuit (operations, layouts) gives the identity up to twice the global
phase, because `QuantumComputation::invert` keeps the global phase. -/
theorem c22_invert_qc_phase (c c' : QC) (f : State → State) (wf : ∀ o ∈ c.ops, o.WF)
    (hlen : c.init.length = c.out.length)
    (hi : Function.Bijective (permOf c.init)) (ho : Function.Bijective (permOf c.out))
    (h : c.invert = some c') (hf : c.denote = some f) :
    ∃ g, c'.denote = some g ∧
      ∀ ψ y, g (f ψ) y = ⟨cos c.gphase, sin c.gphase⟩ * (⟨cos c.gphase, sin c.gphase⟩ * ψ y) := by
  rw [QC.invert, Option.map_eq_some_iff] at h
  obtain ⟨ops', h1, rfl⟩ := h
  rw [if_pos hlen]
  rw [QC.denote, Option.map_eq_some_iff] at hf
  obtain ⟨a, h2, rfl⟩ := hf
  obtain ⟨g, h3, h4, h5⟩ := UOp.invertL_undo _ _ _ wf h1 h2
  refine ⟨_, by rw [QC.denote, h3]; rfl, ?_⟩
  intro ψ y
  simp only
  have lin : ∀ (k : ℂ) (φ : State), g (fun x => k * φ x) = fun x => k * g φ x := by
    intro k φ
    exact (UOp.denoteL_linear h3).smul k φ
  rw [lin]
  simp only
  congr 1
  have e1 : (fun x : Bits => a (fun x => ψ (x ∘ Function.invFun (permOf c.init)))
      ((x ∘ Function.invFun (permOf c.out)) ∘ permOf c.out)) =
      a (fun x => ψ (x ∘ Function.invFun (permOf c.init))) := by
    funext x
    congr 1
    funext q
    simp only [Function.comp]
    rw [Function.leftInverse_invFun ho.1 q]
  rw [e1, h4]
  congr 2
  funext q
  simp only [Function.comp]
  rw [Function.invFun_eq (hi.2 q)]

/-- **C22.** Inverting a circuit whose global phase is a multiple of `π` (in particular `0`) and
whose layouts are permutations of the same size undoes it.  Missing for the full statement:
circuits with another global phase (false, see below) and with layouts of different sizes. -/
theorem c22_invert_undoes_partial (c c' : QC) (f : State → State) (wf : ∀ o ∈ c.ops, o.WF)
    (hlen : c.init.length = c.out.length)
    (hi : Function.Bijective (permOf c.init)) (ho : Function.Bijective (permOf c.out))
    (hp : ∃ k : ℤ, c.gphase = k * π)
    (h : c.invert = some c') (hf : c.denote = some f) :
    ∃ g, c'.denote = some g ∧ ∀ ψ, g (f ψ) = ψ := by
  obtain ⟨g, h1, h2⟩ := c22_invert_qc_phase c c' f wf hlen hi ho h hf
  refine ⟨g, h1, fun ψ => funext fun y => ?_⟩
  rw [h2, ← mul_assoc]
  obtain ⟨k, hk⟩ := hp
  have hs : sin c.gphase = 0 := by rw [hk]; exact Real.sin_int_mul_pi k
  have hc : cos c.gphase * cos c.gphase = 1 := by
    have := Real.sin_sq_add_cos_sq c.gphase
    rw [hs] at this; linarith
  have : (⟨cos c.gphase, sin c.gphase⟩ : ℂ) * ⟨cos c.gphase, sin c.gphase⟩ = 1 := by
    rw [hs]; apply Complex.ext <;> simp [hc]
  rw [this, one_mul]

/-- **C22 (violated).** An empty circuit with global phase `π/2`: the inverted circuit negates
the state instead of restoring it. -/
theorem c22_invert_fails : ∃ (c c' : QC) (f g : State → State) (ψ : State),
    (∀ o ∈ c.ops, o.WF) ∧ c.invert = some c' ∧ c.denote = some f ∧ c'.denote = some g ∧
      g (f ψ) ≠ ψ := by
  let c : QC := ⟨[], π / 2, [], []⟩
  have hb : Function.Bijective (permOf []) := by
    have : permOf [] = id := by funext q; rfl
    rw [this]; exact Function.bijective_id
  have hc : c.invert = some c := by simp [QC.invert, c, UOp.invertL]
  obtain ⟨f, hf⟩ : ∃ f, c.denote = some f := ⟨_, rfl⟩
  obtain ⟨g, hg, h⟩ := c22_invert_qc_phase c c f (by simp [c]) rfl hb hb hc hf
  refine ⟨c, c, f, g, fun _ => 1, by simp [c], hc, hf, hg, fun he => ?_⟩
  have := h (fun _ => 1) (fun _ => false)
  rw [he] at this
  simp [c, Complex.ext_iff] at this
  norm_num at this

/-- A Bell circuit with a layout that exchanges the two qubits at the end. -/
example : QC.invert ⟨[.std ⟨h, [], ∅, [1]⟩, .compound [.std ⟨s, [], ∅, [0]⟩,
      .std ⟨x, [], {(1, true)}, [0]⟩]], 0, [(0, 0), (1, 1)], [(0, 1), (1, 0)]⟩ =
    some ⟨[.compound [.std ⟨x, [], {(1, true)}, [0]⟩, .std ⟨sdg, [], ∅, [0]⟩],
      .std ⟨h, [], ∅, [1]⟩], 0, [(0, 1), (1, 0)], [(0, 0), (1, 1)]⟩ := by
  simp [QC.invert, UOp.invertL, UOp.invert_compound, UOp.invert, StdOp.invert]

/-! ### C65 -/

/-- **C65.** Adding to the global phase keeps it in `[0, 2π)` and changes it by the angle modulo
`2π`; the two loops terminate (any sufficient number of rounds gives such a result). -/
theorem c65_gphase_normalised (cur angle : ℝ) (fuel : ℕ)
    (hfuel : |cur + angle| ≤ fuel * (2 * π)) :
    0 ≤ gphaseStep fuel cur angle ∧ gphaseStep fuel cur angle < 2 * π ∧
      ∃ k : ℤ, gphaseStep fuel cur angle = cur + angle + k * (2 * π) := by
  have hpi := Real.pi_pos
  have ha := abs_le.1 hfuel
  obtain ⟨a, b, c, k, d⟩ := addLoop_spec fuel (cur + angle) (by linarith [ha.1])
  have hlt : addLoop fuel (cur + angle) < (fuel + 1) * (2 * π) := by
    by_cases hn : cur + angle < 0
    · have := b hn
      have h0 : (0 : ℝ) ≤ fuel * (2 * π) := by positivity
      linarith
    · rw [c (not_lt.1 hn)]; linarith [ha.2]
  obtain ⟨e, f, j, g⟩ := subLoop_spec fuel _ a hlt
  refine ⟨e, f, (k : ℤ) - j, ?_⟩
  rw [gphaseStep, g, d]; push_cast; ring

/-- **C65.** The result does not depend on the number of rounds allowed: the loops stop. -/
theorem c65_gphase_unique (cur angle : ℝ) (m n : ℕ) (hm : |cur + angle| ≤ m * (2 * π))
    (hn : |cur + angle| ≤ n * (2 * π)) : gphaseStep m cur angle = gphaseStep n cur angle := by
  obtain ⟨a, b, k, c⟩ := c65_gphase_normalised cur angle m hm
  obtain ⟨d, e, j, f⟩ := c65_gphase_normalised cur angle n hn
  have hpi := Real.pi_pos
  have h1 : ((k - j : ℤ) : ℝ) * (2 * π) < 1 * (2 * π) := by push_cast; linarith
  have h2 : (-1 : ℝ) * (2 * π) < ((k - j : ℤ) : ℝ) * (2 * π) := by push_cast; linarith
  have h3 := lt_of_mul_lt_mul_right h1 (by positivity)
  have h4 := lt_of_mul_lt_mul_right h2 (by positivity)
  have h5 : k - j < 1 := by exact_mod_cast h3
  have h6 : -1 < k - j := by exact_mod_cast h4
  have : k = j := by omega
  rw [c, f, this]

example : gphaseStep 5 (3 * π / 2) π = π / 2 := by
  have := Real.pi_pos
  have h1 : ¬ (3 * π / 2 + π < 0) := by linarith
  have h2 : 2 * π ≤ 3 * π / 2 + π := by linarith
  have h3 : ¬ (2 * π ≤ 3 * π / 2 + π - 2 * π) := by linarith
  rw [gphaseStep, addLoop, if_neg h1, subLoop, if_pos h2, subLoop, if_neg h3]; ring

/-! ### C31 -/

/-- **C31.** Operations that compare equal act identically (after relabelling by the two
permutations), except possibly controlled `rz`/`rzz` gates, for which the comparison is wrong. -/
theorem c31_equals_sound_partial (f1 f2 : ℕ → ℕ) (o1 o2 : StdOp ℝ) (w1 : o1.WF) (w2 : o2.WF)
    (i1 : Set.InjOn f1 o1.used) (i2 : Set.InjOn f2 o2.used)
    (he : @StdOp.equals ℝ (Classical.decEq ℝ) f1 f2 o1 o2 = true)
    (hx : (o1.type = rz ∨ o1.type = rzz) → o1.controls = ∅) (f g : State → State)
    (hf : (o1.relabel f1).denote = some f) (hg : (o2.relabel f2).denote = some g) : f = g :=
  StdOp.equals_sound w1 w2 i1 i2 he hx hf hg

/-- **C31.** For gates without the diagonal flag equality means the same type, parameters,
targets in order and controls after relabelling. -/
theorem c31_equals_nondiagonal (f1 f2 : ℕ → ℕ) (o1 o2 : StdOp ℝ)
    (hd : o1.type.isDiagonal = false) :
    @StdOp.equals ℝ (Classical.decEq ℝ) f1 f2 o1 o2 = true →
      o1.relabel f1 = o2.relabel f2 := by
  intro he
  obtain ⟨-, -, -, h⟩ := @StdOp.equals_facts ℝ (Classical.decEq ℝ) f1 f2 o1 o2 he
  rcases h with ⟨h, -⟩ | h
  · rw [h] at hd; cases hd
  · exact h

/-- **C31.** Every operation equals itself. -/
theorem c31_equals_refl (f : ℕ → ℕ) (o : StdOp ℝ) :
    @StdOp.equals ℝ (Classical.decEq ℝ) f f o o = true := by
  unfold StdOp.equals
  simp

/-- **C31 (violated).** `crz(0→1)` and `crz(1→0)` compare equal but act differently. -/
theorem c31_equals_fails : ∃ (o1 o2 : StdOp ℝ) (f g : State → State), o1.WF ∧ o2.WF ∧
    @StdOp.equals ℝ (Classical.decEq ℝ) id id o1 o2 = true ∧
    o1.denote = some f ∧ o2.denote = some g ∧ f ≠ g := by
  refine ⟨⟨rz, [π], {(0, true)}, [1]⟩, ⟨rz, [π], {(1, true)}, [0]⟩, _, _, ?_, ?_, ?_, rfl, rfl, ?_⟩
  · constructor <;> simp [ctrlQubits]
  · constructor <;> simp [ctrlQubits]
  · simp [StdOp.equals, StdOp.usedPermuted, StdOp.negControls, ctrlQubits, OpType.isDiagonal,
      Finset.pair_comm, Finset.filter_singleton]
    decide
  · intro h
    have := congrFun (congrFun h fun _ => 1) fun q => decide (q = 0)
    simp [ctl, Sat, app1, mat1, rzMat, Complex.ext_iff] at this

/-- The comparison does identify `cp(0→1)` with `cp(1→0)`, and tells `cx` apart. -/
example :
    let cp : ℕ → ℕ → StdOp ℕ := fun c t => ⟨p, [3], {(c, true)}, [t]⟩
    let cx : ℕ → ℕ → StdOp ℕ := fun c t => ⟨x, [], {(c, true)}, [t]⟩
    StdOp.equals id id (cp 0 1) (cp 1 0) = true ∧ StdOp.equals id id (cx 0 1) (cx 1 0) = false ∧
      StdOp.equals id (fun q => 1 - q) (cx 0 1) (cx 1 0) = true := by decide

end MQT.IR

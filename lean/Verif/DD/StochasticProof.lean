/-
Averages of stochastic noise.
-/
import Verif.DD.Stochastic
import Verif.DD.NoiseProof
import Verif.DD.Measure
import Verif.Sim.GetDD

set_option autoImplicit false

noncomputable section

open Classical
open Function (update)
open Complex (normSq)
open scoped ComplexConjugate

namespace MQT.DD

open MQT.IR (Bits State Mat1 mat1 app1 app1_mul app1_one)

/-! ### Random programs -/

namespace Rand

theorem E_bind {α β : Type} (p : Rand α) (k : α → Rand β) (f : β → ℂ) : (p.bind k).E f = p.E fun a => (k a).E f := by
  induction p with
  | done a => rfl
  | draw g ih => simp only [bind, E, ih]

/-- Every result satisfies `P`, for draws strictly between 0 and 1. -/
def All {α : Type} (P : α → Prop) : Rand α → Prop
  | done a => P a
  | draw k => ∀ u, 0 < u → u < 1 → (k u).All P

theorem All.bind {α β : Type} {P : α → Prop} {Q : β → Prop} {p : Rand α} {k : α → Rand β} (hp : p.All P)
    (hk : ∀ a, P a → (k a).All Q) : (p.bind k).All Q := by
  induction p with
  | done a => exact hk a hp
  | draw g ih => exact fun u h0 h1 => ih u (hp u h0 h1)

theorem All.of_bind_done {α : Type} {P : α → Prop} {p : Rand α} (h : (p.bind done).All P) : p.All P := by
  induction p with
  | done a => exact h
  | draw g ih => exact fun u h0 h1 => ih u (h u h0 h1)

theorem All.runWith {α : Type} {P : α → Prop} {p : Rand α} (hp : p.All P) {us : List ℝ} (hu : ∀ u ∈ us, 0 < u ∧ u < 1) {a : α}
    (h : p.runWith us = some a) : P a := by
  induction p generalizing us with
  | done b => cases h; exact hp
  | draw k ih =>
    cases us with
    | nil => cases h
    | cons u us =>
      obtain ⟨h0, h1⟩ := hu u (List.mem_cons_self ..)
      exact ih u (hp u h0 h1) (fun v hv => hu v (List.mem_cons_of_mem _ hv)) h

end Rand

/-! ### The operators that can be drawn -/

/-- The Pauli matrices of an effect with their probabilities. -/
def paulis (p : ℝ) : Noise → List (ℝ × Mat1)
  | .phaseFlip => [(p, Pauli.Z.mat), (1 - p, Pauli.I.mat)]
  | .depol => [(p / 4, Pauli.X.mat), (p / 4, Pauli.Y.mat), (p / 4, Pauli.Z.mat), (1 - 3 * p / 4, Pauli.I.mat)]
  | .ident => [(1, Pauli.I.mat)]
  | .ampDamp => []

/-- The products of one-qubit matrices that `generate` can put in front of the operation, with their probabilities. -/
def StochNoise.ops (N : StochNoise) (flag multi : Bool) : List Noise → List (ℝ × Mat1)
  | [] => [(1, 1)]
  | .ampDamp :: l => (N.ops flag multi l).map fun r => (r.1, r.2 * N.dampMatrix multi flag)
  | ty :: l => (paulis (N.prob multi ty) ty).flatMap fun c => (N.ops flag multi l).map fun r => (c.1 * r.1, r.2 * c.2)

theorem ops_other (N : StochNoise) (flag multi : Bool) {ty : Noise} (h : ty ≠ .ampDamp) (l : List Noise) :
    N.ops flag multi (ty :: l) =
      (paulis (N.prob multi ty) ty).flatMap fun c => (N.ops flag multi l).map fun r => (c.1 * r.1, r.2 * c.2) := by
  cases ty <;> first | exact absurd rfl h | rfl

theorem generate_other (N : StochNoise) (n t : ℕ) (flag multi : Bool) {ty : Noise} (h : ty ≠ .ampDamp) (l : List Noise)
    (op : Option MEdge) : N.generate n t flag multi (ty :: l) op = .draw fun u =>
    N.generate n t flag multi l (op.bind fun o =>
      if N.returnNoiseOperation ty u multi = .I then some o
      else stackOperation n o t (N.returnNoiseOperation ty u multi).mat) := by
  cases ty <;> first | exact absurd rfl h | rfl

/-- Probabilities between 0 and 1. -/
structure StochNoise.Ok (N : StochNoise) : Prop where
  noise : 0 ≤ N.noise ∧ N.noise ≤ 1
  damp : 0 ≤ N.damp ∧ N.damp ≤ 1
  noiseMulti : 0 ≤ N.noise * N.factor ∧ N.noise * N.factor ≤ 1
  dampMulti : 0 ≤ N.damp * N.factor ∧ N.damp * N.factor ≤ 1

theorem StochNoise.Ok.prob {N : StochNoise} (h : N.Ok) (multi : Bool) (ty : Noise) :
    0 ≤ N.prob multi ty ∧ N.prob multi ty ≤ 1 := by
  unfold StochNoise.prob
  cases multi <;> cases ty <;> simp [h.noise, h.damp, h.noiseMulti, h.dampMulti]

theorem StochNoise.getNoise (N : StochNoise) (multi : Bool) {ty : Noise} (h1 : ty ≠ .ampDamp) (h2 : ty ≠ .ident) :
    N.getNoiseProbability multi = N.prob multi ty := by
  unfold StochNoise.getNoiseProbability StochNoise.prob
  cases multi <;> simp [h1, h2]

/-- A draw selects the Pauli matrices with their probabilities. -/
theorem pauli_draw {N : StochNoise} (hN : N.Ok) (multi : Bool) {ty : Noise} (h : ty ≠ .ampDamp) (F : Mat1 → ℂ) :
    ∫ u in (0 : ℝ)..1, F (N.returnNoiseOperation ty u multi).mat =
      ((paulis (N.prob multi ty) ty).map fun c => (c.1 : ℂ) * F c.2).sum := by
  have hp := hN.prob multi ty
  cases ty with
  | ampDamp => exact absurd rfl h
  | ident =>
    obtain ⟨-, e⟩ := piece (a := 0) (b := 1) zero_le_one (f := fun u => F (N.returnNoiseOperation .ident u multi).mat)
      (v := F Pauli.I.mat) fun u _ _ => rfl
    rw [e]
    simp [paulis]
  | phaseFlip =>
    have hg := N.getNoise multi (ty := .phaseFlip) (by simp) (by simp)
    generalize N.prob multi .phaseFlip = p at *
    rw [integral_two hp.1 hp.2 (a := F Pauli.Z.mat) (b := F Pauli.I.mat)]
    · simp [paulis]
    · intro u _ h1
      simp only [StochNoise.returnNoiseOperation, hg]
      rw [if_neg (by linarith)]
    · intro u h1 _
      simp only [StochNoise.returnNoiseOperation, hg]
      rw [if_pos h1]
  | depol =>
    have hg := N.getNoise multi (ty := .depol) (by simp) (by simp)
    generalize N.prob multi .depol = p at *
    have hF : ∀ u, (N.returnNoiseOperation .depol u multi) = if u ≥ p * (3 / 4) then Pauli.I else if u < p * (1 / 4) then .X
        else if u < p * (1 / 2) then .Y else .Z := fun u => by simp only [StochNoise.returnNoiseOperation, hg]
    obtain ⟨i1, e1⟩ := piece (a := 0) (b := p * (1 / 4)) (by linarith) (v := F Pauli.X.mat)
      (f := fun u => F (N.returnNoiseOperation .depol u multi).mat) fun u h1 h2 => by
        rw [hF, if_neg (by linarith), if_pos h2]
    obtain ⟨i2, e2⟩ := piece (a := p * (1 / 4)) (b := p * (1 / 2)) (by linarith) (v := F Pauli.Y.mat)
      (f := fun u => F (N.returnNoiseOperation .depol u multi).mat) fun u h1 h2 => by
        rw [hF, if_neg (by linarith), if_neg (by linarith), if_pos h2]
    obtain ⟨i3, e3⟩ := piece (a := p * (1 / 2)) (b := p * (3 / 4)) (by linarith) (v := F Pauli.Z.mat)
      (f := fun u => F (N.returnNoiseOperation .depol u multi).mat) fun u h1 h2 => by
        rw [hF, if_neg (by linarith), if_neg (by linarith), if_neg (by linarith)]
    obtain ⟨i4, e4⟩ := piece (a := p * (3 / 4)) (b := 1) (by linarith) (v := F Pauli.I.mat)
      (f := fun u => F (N.returnNoiseOperation .depol u multi).mat) fun u h1 h2 => by
        rw [hF, if_pos (by linarith)]
    rw [← intervalIntegral.integral_add_adjacent_intervals i1 ((i2.trans i3).trans i4),
      ← intervalIntegral.integral_add_adjacent_intervals i2 (i3.trans i4),
      ← intervalIntegral.integral_add_adjacent_intervals i3 i4, e1, e2, e3, e4]
    simp only [paulis, List.map_cons, List.map_nil, List.sum_cons, List.sum_nil]
    push_cast
    ring

/-! ### Generated operations -/

/-- `s` is `op` followed by `R` on qubit `t`. -/
structure RepR (n t : ℕ) (op : MEdge) (s : MEdge) (R : Mat1) : Prop where
  can : MECan n s
  val : ∀ (ψ : State) (a : Bits), matVec n (s.mat n) ψ a = app1 R t (matVec n (op.mat n) ψ) a

theorem matVec_congr' {n : ℕ} {A B : Bits → Bits → ℂ} (h : ∀ a b, A a b = B a b) (ψ : State) (a : Bits) :
    matVec n A ψ a = matVec n B ψ a := by
  unfold matVec
  simp only [h]

theorem stack_spec {n t : ℕ} (ht : t < n) {op o : MEdge} {R : Mat1} (ho : RepR n t op o R) (M : Mat1) :
    ∃ s, stackOperation n o t M = some s ∧ RepR n t op s (M * R) := by
  obtain ⟨g, h1, h2, h3⟩ := makeGateDD_rep n M [] t List.Pairwise.nil (by simp) ht (by simp)
  obtain ⟨s, k1, k2, k3⟩ := mmul_spec h2.ok ho.can.ok
  refine ⟨s, by rw [stackOperation, h1]; exact k1, k2, fun ψ a => ?_⟩
  rw [matVec_congr' k3]
  refine (MQT.Sim.matVec_matMul n (g.mat n) (o.mat n) ψ a).trans ?_
  have e : ∀ (φ : State) (a : Bits), matVec n (g.mat n) φ a = app1 M t φ a := by
    intro φ a
    unfold matVec
    have e1 : ∀ z, g.mat n a z * φ z = if AgreeOff {t} n a z then M (a t) (z t) * φ z else 0 := by
      intro z
      rw [h3.val]
      split_ifs with h5 h6 <;> first | rfl | (exfalso; apply h6; simp [SatL]) | simp
    simp only [e1]
    have := sumB_agree1 n t ht a fun z => M (a t) (z t) * φ z
    rw [this]
    simp [app1]
  rw [e, ← app1_mul]
  congr 1
  funext b
  exact ho.val ψ b

/-- What `generate` does on average, if `f` only depends on the matrix that is generated. -/
theorem generate_E {N : StochNoise} (hN : N.Ok) {n t : ℕ} (ht : t < n) (flag multi : Bool) {op : MEdge}
    {f : Option MEdge → ℂ} {g : Mat1 → ℂ} (hfg : ∀ s R, RepR n t op s R → f (some s) = g R) :
    ∀ (l : List Noise) {o : MEdge} {R : Mat1}, RepR n t op o R →
      (N.generate n t flag multi l (some o)).E f = ((N.ops flag multi l).map fun r => (r.1 : ℂ) * g (r.2 * R)).sum := by
  intro l
  induction l with
  | nil => intro o R h; simp [StochNoise.generate, StochNoise.ops, Rand.E, hfg _ _ h]
  | cons ty l ih =>
    intro o R h
    by_cases hty : ty = .ampDamp
    · subst hty
      obtain ⟨s, h1, h2⟩ := stack_spec ht h (N.dampMatrix multi flag)
      simp only [StochNoise.generate, StochNoise.ops, Option.bind_some, h1, ih h2, List.map_map, Function.comp_def, mul_assoc]
    · rw [generate_other N n t flag multi hty]
      have key : ∀ P : Pauli, (N.generate n t flag multi l ((some o).bind fun o =>
          if P = .I then some o else stackOperation n o t P.mat)).E f =
          ((N.ops flag multi l).map fun r => (r.1 : ℂ) * g (r.2 * (P.mat * R))).sum := by
        intro P
        by_cases hP : P = .I
        · subst hP
          rw [Option.bind_some, if_pos rfl, ih h]
          simp [Pauli.mat]
        · obtain ⟨s, h1, h2⟩ := stack_spec ht h P.mat
          rw [Option.bind_some, if_neg hP, h1, ih h2]
      simp only [Rand.E, key]
      rw [pauli_draw hN multi hty (fun P => ((N.ops flag multi l).map fun r => (r.1 : ℂ) * g (r.2 * (P * R))).sum),
        ops_other N flag multi hty]
      induction paulis (N.prob multi ty) ty with
      | nil => simp
      | cons c cs ihc =>
        rw [List.flatMap_cons, List.map_append, List.sum_append, List.map_cons, List.sum_cons, ihc, List.map_map,
          ← List.sum_map_mul_left]
        congr 2
        refine List.map_congr_left fun r _ => ?_
        simp only [Function.comp_def, Complex.ofReal_mul, mul_assoc]

theorem pauli_mem (N : StochNoise) (multi : Bool) {ty : Noise} (h : ty ≠ .ampDamp) (u : ℝ) :
    ∃ c ∈ paulis (N.prob multi ty) ty, c.2 = (N.returnNoiseOperation ty u multi).mat := by
  cases ty with
  | ampDamp => exact absurd rfl h
  | ident => simp [paulis, StochNoise.returnNoiseOperation]
  | phaseFlip =>
    simp only [paulis, StochNoise.returnNoiseOperation]
    split_ifs <;> simp
  | depol =>
    simp only [paulis, StochNoise.returnNoiseOperation]
    split_ifs <;> simp

/-- Every generated operation is one of the listed ones. -/
theorem generate_all {N : StochNoise} {n t : ℕ} (ht : t < n) (flag multi : Bool) {op : MEdge} :
    ∀ (l : List Noise) {o : MEdge} {R : Mat1}, RepR n t op o R →
      (N.generate n t flag multi l (some o)).All fun r => ∃ s, ∃ c ∈ N.ops flag multi l, r = some s ∧ RepR n t op s (c.2 * R) := by
  intro l
  induction l with
  | nil => intro o R h; exact ⟨o, (1, 1), by simp [StochNoise.ops], rfl, by simpa using h⟩
  | cons ty l ih =>
    intro o R h
    by_cases hty : ty = .ampDamp
    · subst hty
      obtain ⟨s, h1, h2⟩ := stack_spec ht h (N.dampMatrix multi flag)
      simp only [StochNoise.generate, StochNoise.ops, Option.bind_some, h1]
      have := (ih h2).bind (k := Rand.done) (Q := fun r => ∃ s, ∃ c ∈ (N.ops flag multi l).map
        (fun r => (r.1, r.2 * N.dampMatrix multi flag)), r = some s ∧ RepR n t op s (c.2 * R)) (by
          rintro r ⟨s, c, hc, h3, h4⟩
          exact ⟨s, _, List.mem_map_of_mem hc, h3, by rw [mul_assoc]; exact h4⟩)
      exact this.of_bind_done
    · rw [generate_other N n t flag multi hty, ops_other N flag multi hty]
      intro u _ _
      beta_reduce
      obtain ⟨d, hd, hdP⟩ := pauli_mem N multi hty u
      generalize N.returnNoiseOperation ty u multi = P at *
      have key : ∃ s, ((some o).bind fun o => if P = .I then some o else stackOperation n o t P.mat) = some s ∧
          RepR n t op s (P.mat * R) := by
        by_cases hP : P = .I
        · subst hP
          exact ⟨o, by simp, by simpa [Pauli.mat] using h⟩
        · obtain ⟨s, h1, h2⟩ := stack_spec ht h P.mat
          exact ⟨s, by rw [Option.bind_some, if_neg hP, h1], h2⟩
      obtain ⟨s, h1, h2⟩ := key
      rw [h1]
      refine ((ih h2).bind (k := Rand.done) ?_).of_bind_done
      rintro r ⟨s, c, hc, h3, h4⟩
      exact ⟨s, (d.1 * c.1, c.2 * d.2), List.mem_flatMap.2 ⟨d, hd, List.mem_map.2 ⟨c, hc, rfl⟩⟩, h3, by
        rw [hdP, mul_assoc]; exact h4⟩

/-! ### Norms -/

/-- The squared norm on `n` qubits. -/
def nrm (n : ℕ) (φ : State) : ℝ := sumB n (fun z => normSq (φ z)) fun _ => false

/-- The part of it where qubit `t` is `b`. -/
def part (n t : ℕ) (b : Bool) (φ : State) : ℝ := sumB n (fun z => if z t = b then normSq (φ z) else 0) fun _ => false

theorem fill_update {n q : ℕ} (hq : q < n) (z : Fin n → Bool) (s : Bits) (b : Bool) :
    fill (update z ⟨q, hq⟩ b) s = update (fill z s) q b := by
  funext k
  unfold fill
  by_cases hk : k = q
  · subst hk; simp [hq]
  · rw [Function.update_of_ne hk]
    split_ifs with h
    · rw [Function.update_of_ne (by simpa using hk)]
    · rfl

theorem sumB_pair {n t : ℕ} (ht : t < n) {f g : Bits → ℝ}
    (h : ∀ z, f (update z t false) + f (update z t true) = g (update z t false) + g (update z t true)) (s : Bits) :
    sumB n f s = sumB n g s := by
  have key : ∀ f : Bits → ℝ, 2 * sumB n f s =
      ∑ z : Fin n → Bool, (f (update (fill z s) t false) + f (update (fill z s) t true)) := by
    intro f
    have inv : Function.Involutive fun z : Fin n → Bool => update z ⟨t, ht⟩ (!(z ⟨t, ht⟩)) := by
      intro z
      simp
    have e := Equiv.sum_comp inv.toPerm fun z => f (fill z s)
    rw [two_mul, sumB_eq]
    conv_lhs => rw [← e, e]
    conv_lhs => arg 2; rw [← e]
    rw [← Finset.sum_add_distrib]
    refine Finset.sum_congr rfl fun z _ => ?_
    show f (fill z s) + f (fill (update z ⟨t, ht⟩ (!(z ⟨t, ht⟩))) s) = _
    rw [fill_update]
    have e2 : fill z s = update (fill z s) t (z ⟨t, ht⟩) := by
      rw [← fill_update ht, Function.update_eq_self]
    conv_lhs => arg 1; rw [e2]
    cases z ⟨t, ht⟩
    · rfl
    · rw [add_comm]; rfl
  have := key f
  rw [Finset.sum_congr rfl fun z _ => h (fill z s), ← key g] at this
  linarith

theorem part_add (n t : ℕ) (φ : State) : part n t false φ + part n t true φ = nrm n φ := by
  unfold part nrm
  rw [← sumB_add]
  congr 1
  funext z
  cases z t <;> simp

theorem sumB_nonneg {n : ℕ} {f : Bits → ℝ} (h : ∀ z, 0 ≤ f z) (s : Bits) : 0 ≤ sumB n f s := by
  induction n generalizing s with
  | zero => exact h s
  | succ n ih => exact add_nonneg (ih _) (ih _)

theorem part_nonneg (n t : ℕ) (b : Bool) (φ : State) : 0 ≤ part n t b φ :=
  sumB_nonneg (fun z => by split_ifs <;> simp [Complex.normSq_nonneg]) _

/-- The norm after applying `R` depends on `R†R` only. -/
theorem nrm_app1 {n t : ℕ} (ht : t < n) {R : Mat1} {g0 g1 : ℝ} (hR : R.conjTranspose * R = mat1 g0 0 0 g1) (φ : State) :
    nrm n (app1 R t φ) = g0 * part n t false φ + g1 * part n t true φ := by
  unfold part nrm
  rw [← sumB_mul_left', ← sumB_mul_left', ← sumB_add]
  apply sumB_pair ht
  intro z
  have e : ∀ a b, (R.conjTranspose * R) a b = conj (R false a) * R false b + conj (R true a) * R true b := by
    intro a b
    rw [Matrix.mul_apply, Fintype.sum_bool, add_comm]
    rfl
  have h00 := (e false false).symm.trans (congrFun₂ hR false false)
  have h01 := (e false true).symm.trans (congrFun₂ hR false true)
  have h11 := (e true true).symm.trans (congrFun₂ hR true true)
  simp only [mat1] at h00 h01 h11
  simp only [app1, Function.update_self, Function.update_idem, Fintype.sum_bool]
  generalize φ (update z t false) = a
  generalize φ (update z t true) = b
  have h10 := congrArg conj h01
  simp only [map_add, map_mul, map_zero, Complex.conj_conj] at h10
  apply Complex.ofReal_injective
  simp only [Complex.ofReal_add, ← Complex.mul_conj, map_add, map_mul, Bool.false_eq_true, Bool.true_eq_false, if_false, if_true,
    mul_zero, zero_add, add_zero, Complex.ofReal_mul]
  linear_combination (a * conj a) * h00 + (b * conj b) * h11 + (b * conj a) * h01 + (a * conj b) * h10

/-- The squared norm of an edge is that of its weight. -/
theorem nrm_vec {n : ℕ} {e : VEdge} (he : VECan n e) : nrm n e.vec = normSq e.w := by
  exact (part_add n 0 e.vec).symm.trans (born_sum he)

/-! ### Linear maps on density matrices -/

/-- `T` is linear. -/
def Lin (T : (Bits → Bits → ℂ) → Bits → Bits → ℂ) : Prop :=
  ∀ (a b : ℂ) (H H' : Bits → Bits → ℂ), T (fun x y => a * H x y + b * H' x y) = fun x y => a * T H x y + b * T H' x y

theorem Lin.id : Lin fun H => H := fun _ _ _ _ => rfl

theorem Lin.comp {S T : (Bits → Bits → ℂ) → Bits → Bits → ℂ} (hS : Lin S) (hT : Lin T) : Lin fun H => S (T H) := by
  intro a b H H'
  show S (T _) = _
  rw [hT a b H H', hS]

theorem Lin.zero {T : (Bits → Bits → ℂ) → Bits → Bits → ℂ} (hT : Lin T) : T (fun _ _ => 0) = fun _ _ => 0 := by
  have := hT 0 0 (fun _ _ => 0) (fun _ _ => 0)
  simpa using this

theorem Lin.sum {T : (Bits → Bits → ℂ) → Bits → Bits → ℂ} (hT : Lin T) {α : Type} (G : α → ℂ × (Bits → Bits → ℂ)) (l : List α) :
    T (fun x y => (l.map fun r => (G r).1 * (G r).2 x y).sum) = fun x y => (l.map fun r => (G r).1 * T (G r).2 x y).sum := by
  induction l with
  | nil => simpa using hT.zero
  | cons r l ih =>
    have := hT (G r).1 1 (G r).2 fun x y => (l.map fun r => (G r).1 * (G r).2 x y).sum
    simp only [one_mul] at this
    simp only [List.map_cons, List.sum_cons, this, ih]

theorem lin_chan (l : List Mat1) (q : ℕ) : Lin (chan l q) := by
  intro a b H H'
  funext x y
  unfold chan krausSum
  induction l with
  | nil => simp
  | cons K l ih =>
    simp only [List.map_cons, List.sum_cons] at ih ⊢
    rw [ih]
    simp only [Fintype.sum_bool]
    ring

theorem lin_chanQ (N : StochNoise) (multi : Bool) (l : List Noise) (q : ℕ) : Lin (N.chanQ multi l q) := by
  induction l with
  | nil => exact Lin.id
  | cons ty l ih => exact ih.comp (lin_chan _ q)

theorem lin_channel (N : StochNoise) (multi : Bool) (ts : List ℕ) : Lin (N.channel multi ts) := by
  induction ts with
  | nil => exact Lin.id
  | cons t ts ih => exact ih.comp (lin_chanQ N multi _ t)

theorem chan_mul (R P : Mat1) (q : ℕ) (H : Bits → Bits → ℂ) : chan [R * P] q H = chan [R] q (chan [P] q H) := by
  funext x y
  simp only [chan, krausSum, List.map_cons, List.map_nil, List.sum_cons, List.sum_nil, add_zero, Matrix.mul_apply,
    Fintype.sum_bool, Function.update_self, Function.update_idem, map_add, map_mul]
  ring

/-- `|φ><φ|`. -/
def pure (φ : State) (x y : Bits) : ℂ := φ x * conj (φ y)

theorem chan_pure (R : Mat1) (q : ℕ) (φ : State) : chan [R] q (pure φ) = pure (app1 R q φ) := by
  funext x y
  simp only [chan, krausSum, pure, app1, List.map_cons, List.map_nil, List.sum_cons, List.sum_nil, add_zero,
    Fintype.sum_bool, map_add, map_mul]
  ring

/-! ### Sums over the drawn operators -/

/-- The operators of `ops`, applied and summed up with their probabilities. -/
def StochNoise.mixed (N : StochNoise) (flag multi : Bool) (l : List Noise) (t : ℕ) (H : Bits → Bits → ℂ) (x y : Bits) : ℂ :=
  ((N.ops flag multi l).map fun r => (r.1 : ℂ) * chan [r.2] t H x y).sum

theorem lin_mixed (N : StochNoise) (flag multi : Bool) (l : List Noise) (t : ℕ) : Lin (N.mixed flag multi l t) := by
  intro a b H H'
  funext x y
  unfold StochNoise.mixed
  induction N.ops flag multi l with
  | nil => simp
  | cons r l ih =>
    simp only [List.map_cons, List.sum_cons]
    rw [ih, lin_chan]
    ring

theorem mixed_damp (N : StochNoise) (flag multi : Bool) (l : List Noise) (t : ℕ) (H : Bits → Bits → ℂ) :
    N.mixed flag multi (.ampDamp :: l) t H = N.mixed flag multi l t (chan [N.dampMatrix multi flag] t H) := by
  funext x y
  simp only [StochNoise.mixed, StochNoise.ops, List.map_map, Function.comp_def, chan_mul]

theorem chan_paulis {p : ℝ} (hp : 0 ≤ p ∧ p ≤ 1) {ty : Noise} (h : ty ≠ .ampDamp) (q : ℕ) (H : Bits → Bits → ℂ) :
    chan (ty.kraus p) q H = fun x y => ((paulis p ty).map fun c => (c.1 : ℂ) * chan [c.2] q H x y).sum := by
  funext x y
  rw [chan, kraus_form hp]
  cases ty <;> first
    | exact absurd rfl h
    | (simp only [form, paulis, chan, krausSum, Pauli.mat, List.map_cons, List.map_nil, List.sum_cons, List.sum_nil,
        Fintype.sum_bool]
       cases x q <;> cases y q <;> simp [mat1] <;> ring_nf <;> simp only [Complex.I_sq] <;> ring1)

theorem mixed_other {N : StochNoise} (hN : N.Ok) (flag multi : Bool) {ty : Noise} (h : ty ≠ .ampDamp) (l : List Noise) (t : ℕ)
    (H : Bits → Bits → ℂ) :
    N.mixed flag multi (ty :: l) t H = N.mixed flag multi l t (chan (ty.kraus (N.prob multi ty)) t H) := by
  rw [chan_paulis (hN.prob multi ty) h]
  have := (lin_mixed N flag multi l t).sum (fun c : ℝ × Mat1 => ((c.1 : ℂ), chan [c.2] t H)) (paulis (N.prob multi ty) ty)
  simp only at this
  rw [this]
  funext x y
  simp only [StochNoise.mixed, ops_other N flag multi h]
  induction paulis (N.prob multi ty) ty with
  | nil => simp
  | cons c cs ihc =>
    rw [List.flatMap_cons, List.map_append, List.sum_append, List.map_cons, List.sum_cons, ihc, List.map_map,
      ← List.sum_map_mul_left]
    congr 2
    refine List.map_congr_left fun r _ => ?_
    simp only [Function.comp_def, Complex.ofReal_mul, mul_assoc, chan_mul]

theorem mixed_pauli {N : StochNoise} (hN : N.Ok) (flag multi : Bool) (t : ℕ) : ∀ (l : List Noise), Noise.ampDamp ∉ l →
    ∀ H, N.mixed flag multi l t H = N.chanQ multi l t H := by
  intro l
  induction l with
  | nil =>
    intro _ H
    funext x y
    have ex : ∀ {x : Bits} {a : Bool}, x t = a → update x t a = x := by
      intro x a h; rw [← h, Function.update_eq_self]
    simp only [StochNoise.mixed, StochNoise.ops, StochNoise.chanQ, chan, krausSum, Matrix.one_apply, List.map_cons, List.map_nil,
      List.sum_cons, List.sum_nil, Fintype.sum_bool, List.foldl]
    cases hx : x t <;> cases hy : y t <;> simp [ex hx, ex hy]
  | cons ty l ih =>
    intro hl H
    simp only [List.mem_cons, not_or] at hl
    rw [mixed_other hN flag multi (Ne.symm hl.1), ih hl.2]
    rfl

/-- The weight that relates the drawn damping matrix to the Kraus operator. -/
def StochNoise.ratio (N : StochNoise) (multi : Bool) : ℝ :=
  N.prob multi .ampDamp / if multi then (√N.noise * N.factor) ^ 2 else √N.damp ^ 2

/-- The drawn damping matrix is not zero, unless the probability is. -/
def StochNoise.Jump (N : StochNoise) (multi : Bool) : Prop := multi = true → N.noise ≠ 0 ∨ N.damp * N.factor = 0

theorem ratio_eq {N : StochNoise} (hN : N.Ok) {multi : Bool} (hj : N.Jump multi) :
    N.ratio multi * (if multi then (√N.noise * N.factor) ^ 2 else √N.damp ^ 2) = N.prob multi .ampDamp := by
  unfold StochNoise.ratio
  apply div_mul_cancel_of_imp
  cases multi
  · simp [Real.sq_sqrt hN.damp.1, StochNoise.prob]
  · intro h
    simp only [if_true, ne_eq, OfNat.ofNat_ne_zero, not_false_eq_true, pow_eq_zero_iff, mul_eq_zero,
      Real.sqrt_eq_zero hN.noise.1] at h
    simp only [StochNoise.prob, if_true]
    rcases hj rfl with h' | h'
    · rw [h.resolve_left h', mul_zero]
    · exact h'

theorem chan_damp {N : StochNoise} (hN : N.Ok) {multi : Bool} (hj : N.Jump multi) (t : ℕ) (H : Bits → Bits → ℂ) :
    chan (Noise.kraus (N.prob multi .ampDamp) .ampDamp) t H = fun x y => 1 * chan [N.dampMatrix multi false] t H x y +
      (N.ratio multi : ℂ) * chan [N.dampMatrix multi true] t H x y := by
  funext x y
  have hr := congrArg (fun r : ℝ => (r : ℂ)) (ratio_eq hN hj)
  have hp := hN.prob multi .ampDamp
  have h0 : (0 : ℝ) ≤ 1 - N.prob multi .ampDamp := by linarith
  have hs : ((√(1 - N.prob multi .ampDamp) : ℝ) : ℂ) ^ 2 = 1 - (N.prob multi .ampDamp : ℂ) := by
    rw [← Complex.ofReal_pow, Real.sq_sqrt h0]; push_cast; ring
  rw [chan, kraus_form hp]
  have e0 : N.dampMatrix multi false = mat1 1 0 0 (√(1 - N.prob multi .ampDamp) : ℝ) := by
    unfold StochNoise.dampMatrix StochNoise.prob
    cases multi <;> simp [mul_comm]
  have e1 : N.dampMatrix multi true = mat1 0 ((if multi then √N.noise * N.factor else √N.damp : ℝ) : ℂ) 0 0 := by
    unfold StochNoise.dampMatrix
    cases multi <;> simp
  have hr' : (N.ratio multi : ℂ) * ((if multi then √N.noise * N.factor else √N.damp : ℝ) : ℂ) ^ 2 = (N.prob multi .ampDamp : ℂ) := by
    rw [← hr]; cases multi <;> simp
  rw [e0, e1]
  generalize ((if multi then √N.noise * N.factor else √N.damp : ℝ) : ℝ) = a at *
  simp only [form, chan, krausSum, List.map_cons, List.map_nil, List.sum_cons, List.sum_nil, Fintype.sum_bool]
  generalize √(1 - N.prob multi .ampDamp) = b at *
  generalize N.prob multi .ampDamp = p at *
  cases x t <;> cases y t <;> simp [mat1]
  · linear_combination -H (update x t true) (update y t true) * hr'
  · ring
  · linear_combination -H (update x t true) (update y t true) * hs

/-- The average over all operators is the composition of the channels. -/
theorem mixed_good {N : StochNoise} (hN : N.Ok) {multi : Bool} (hj : N.Jump multi) (t : ℕ) (post : List Noise)
    (hpost : Noise.ampDamp ∉ post) : ∀ (pre : List Noise), Noise.ampDamp ∉ pre → ∀ H x y,
      N.mixed false multi (pre ++ .ampDamp :: post) t H x y +
        (N.ratio multi : ℂ) * N.mixed true multi (pre ++ .ampDamp :: post) t H x y =
      N.chanQ multi (pre ++ .ampDamp :: post) t H x y := by
  intro pre
  induction pre with
  | nil =>
    intro _ H x y
    rw [List.nil_append, mixed_damp, mixed_damp, mixed_pauli hN _ _ _ _ hpost, mixed_pauli hN _ _ _ _ hpost]
    show _ = N.chanQ multi post t (chan _ t H) x y
    rw [chan_damp hN hj, lin_chanQ]
    simp only [one_mul]
  | cons ty pre ih =>
    intro hl H x y
    simp only [List.mem_cons, not_or] at hl
    rw [List.cons_append, mixed_other hN _ _ (Ne.symm hl.1), mixed_other hN _ _ (Ne.symm hl.1), ih hl.2]
    rfl

theorem ops_sum (N : StochNoise) (flag multi : Bool) (l : List Noise) : ((N.ops flag multi l).map fun r => (r.1 : ℂ)).sum = 1 := by
  induction l with
  | nil => simp [StochNoise.ops]
  | cons ty l ih =>
    by_cases h : ty = .ampDamp
    · subst h
      simpa only [StochNoise.ops, List.map_map, Function.comp_def] using ih
    · rw [ops_other N flag multi h]
      have e : ((paulis (N.prob multi ty) ty).map fun c => (c.1 : ℂ)).sum = 1 := by
        cases ty <;> first | exact absurd rfl h | (simp [paulis]; try ring)
      rw [← e]
      induction paulis (N.prob multi ty) ty with
      | nil => simp
      | cons c cs ihc =>
        rw [List.flatMap_cons, List.map_append, List.sum_append, List.map_cons, List.sum_cons, ihc, List.map_map]
        congr 1
        simp only [Function.comp_def, Complex.ofReal_mul]
        rw [List.sum_map_mul_left, ih, mul_one]

/-! ### Norms of the drawn operators -/

theorem pauli_unit {p : ℝ} {ty : Noise} {c : ℝ × Mat1} (hc : c ∈ paulis p ty) : c.2.conjTranspose * c.2 = 1 := by
  have h : ∀ P : Pauli, P.mat.conjTranspose * P.mat = 1 := by
    intro P
    cases P <;> simp [Pauli.mat, MQT.IR.conjTranspose_mat1, MQT.IR.mat1_mul, MQT.IR.one_eq_mat1]
  cases ty <;> simp [paulis] at hc
  · rcases hc with rfl | rfl <;> exact h _
  · rcases hc with rfl | rfl | rfl | rfl <;> exact h _
  · subst hc; exact h _

theorem ops_unit (N : StochNoise) (flag multi : Bool) : ∀ l : List Noise, Noise.ampDamp ∉ l → ∀ r ∈ N.ops flag multi l,
    r.2.conjTranspose * r.2 = 1 := by
  intro l
  induction l with
  | nil => intro _ r hr; simp [StochNoise.ops] at hr; simp [hr]
  | cons ty l ih =>
    intro hl r hr
    simp only [List.mem_cons, not_or] at hl
    rw [ops_other N flag multi (Ne.symm hl.1)] at hr
    obtain ⟨c, hc, hr⟩ := List.mem_flatMap.1 hr
    obtain ⟨r', hr', rfl⟩ := List.mem_map.1 hr
    rw [Matrix.conjTranspose_mul, Matrix.mul_assoc, ← Matrix.mul_assoc _ r'.2, ih hl.2 r' hr', Matrix.one_mul]
    exact pauli_unit hc

theorem ops_damp (N : StochNoise) (flag multi : Bool) (post : List Noise) (hpost : Noise.ampDamp ∉ post) {g0 g1 : ℂ}
    (hg : (N.dampMatrix multi flag).conjTranspose * N.dampMatrix multi flag = mat1 g0 0 0 g1) :
    ∀ pre : List Noise, (∀ ty ∈ pre, ty = .phaseFlip ∨ ty = .ident) → ∀ r ∈ N.ops flag multi (pre ++ .ampDamp :: post),
      r.2.conjTranspose * r.2 = mat1 g0 0 0 g1 := by
  intro pre
  induction pre with
  | nil =>
    intro _ r hr
    obtain ⟨r', hr', rfl⟩ := List.mem_map.1 hr
    rw [Matrix.conjTranspose_mul, Matrix.mul_assoc, ← Matrix.mul_assoc _ r'.2, ops_unit N flag multi post hpost r' hr',
      Matrix.one_mul, hg]
  | cons ty pre ih =>
    intro hl r hr
    have hty := hl ty (List.mem_cons_self ..)
    rw [List.cons_append, ops_other N flag multi (by rcases hty with rfl | rfl <;> simp)] at hr
    obtain ⟨c, hc, hr⟩ := List.mem_flatMap.1 hr
    obtain ⟨r', hr', rfl⟩ := List.mem_map.1 hr
    rw [Matrix.conjTranspose_mul, Matrix.mul_assoc, ← Matrix.mul_assoc _ r'.2,
      ih (fun ty h => hl ty (List.mem_cons_of_mem _ h)) r' hr']
    rcases hty with rfl | rfl <;> simp [paulis] at hc
    · rcases hc with rfl | rfl <;> simp [Pauli.mat, MQT.IR.conjTranspose_mat1, MQT.IR.mat1_mul]
    · subst hc; simp [Pauli.mat]

/-- What the proof needs to know about the operators: the norm `q` without damping does not depend on the choice, nor does the
norm with damping, and together they give the channel. -/
structure Split (N : StochNoise) (multi : Bool) (n t : ℕ) (κ : ℝ) : Prop where
  norm : ∀ φ, nrm n φ = 1 → ∃ q, 0 ≤ q ∧ q ≤ 1 ∧ (∀ r ∈ N.ops false multi N.effects, nrm n (app1 r.2 t φ) = q) ∧
    ∀ r ∈ N.ops true multi N.effects, κ * nrm n (app1 r.2 t φ) = 1 - q
  val : ∀ H x y, N.mixed false multi N.effects t H x y + (κ : ℂ) * N.mixed true multi N.effects t H x y =
    N.chanQ multi N.effects t H x y

theorem split_good {N : StochNoise} (hN : N.Ok) {multi : Bool} (hj : Noise.ampDamp ∈ N.effects → N.Jump multi)
    (hg : GoodEffects N.effects) {n t : ℕ} (ht : t < n) : ∃ κ, Split N multi n t κ := by
  rcases hg with h | ⟨pre, post, h, hpre, hpost⟩
  · have e : ∀ flag, ∀ r ∈ N.ops flag multi N.effects, r.2.conjTranspose * r.2 = mat1 (1 : ℝ) 0 0 (1 : ℝ) := by
      intro flag r hr
      rw [ops_unit N flag multi N.effects h r hr, MQT.IR.one_eq_mat1]
      simp
    refine ⟨0, fun φ hφ => ⟨1, zero_le_one, le_rfl, fun r hr => ?_, fun r _ => by simp⟩, fun H x y => ?_⟩
    · rw [nrm_app1 ht (e false r hr), one_mul, one_mul, part_add, hφ]
    · rw [mixed_pauli hN false multi t N.effects h]
      simp
  · have hj := hj (by rw [h]; simp)
    have hp := hN.prob multi .ampDamp
    have g0 : (N.dampMatrix multi false).conjTranspose * N.dampMatrix multi false =
        mat1 (1 : ℝ) 0 0 (1 - N.prob multi .ampDamp : ℝ) := by
      have e0 : N.dampMatrix multi false = mat1 1 0 0 (√(1 - N.prob multi .ampDamp) : ℝ) := by
        unfold StochNoise.dampMatrix StochNoise.prob
        cases multi <;> simp [mul_comm]
      rw [e0, MQT.IR.conjTranspose_mat1, MQT.IR.mat1_mul]
      simp [← Complex.ofReal_mul, Real.mul_self_sqrt (show (0 : ℝ) ≤ 1 - N.prob multi .ampDamp by linarith)]
    have g1 : (N.dampMatrix multi true).conjTranspose * N.dampMatrix multi true =
        mat1 (0 : ℝ) 0 0 ((if multi then (√N.noise * N.factor) ^ 2 else √N.damp ^ 2 : ℝ)) := by
      unfold StochNoise.dampMatrix
      cases multi <;> simp [MQT.IR.conjTranspose_mat1, MQT.IR.mat1_mul, sq]
    refine ⟨N.ratio multi, fun φ hφ => ⟨part n t false φ + (1 - N.prob multi .ampDamp) * part n t true φ, ?_, ?_, ?_, ?_⟩, ?_⟩
    · nlinarith [part_nonneg n t false φ, part_nonneg n t true φ]
    · nlinarith [part_nonneg n t false φ, part_nonneg n t true φ, part_add n t φ]
    · intro r hr
      rw [h] at hr
      rw [nrm_app1 ht (ops_damp N false multi post hpost g0 pre hpre r hr), one_mul]
    · intro r hr
      rw [h] at hr
      rw [nrm_app1 ht (ops_damp N true multi post hpost g1 pre hpre r hr), zero_mul, zero_add, ← mul_assoc, ratio_eq hN hj]
      linear_combination (part_add n t φ).trans hφ
    · intro H x y
      rw [h]
      exact mixed_good hN hj t post hpost pre (fun hm => by rcases hpre _ hm with h | h <;> cases h) H x y

/-! ### One target -/

theorem unit_can {n : ℕ} {e : VEdge} (he : VECan n e) (h0 : e.w ≠ 0) : VECan n ⟨e.p, 1⟩ :=
  ⟨fun h => absurd h one_ne_zero, fun _ => he.2 h0⟩

theorem pure_smul (z : ℂ) (φ : State) : pure (fun x => z * φ x) = fun x y => (normSq z : ℂ) * pure φ x y := by
  funext x y
  simp only [pure, map_mul, ← Complex.mul_conj]
  ring

theorem pure_zero : pure (fun _ => 0) = fun _ _ => 0 := by
  funext x y
  simp [pure]

/-- Multiplying a generated operation with the state. -/
theorem rep_mvmul {n t : ℕ} {op s : MEdge} {R : Mat1} (h : RepR n t op s R) {st : VEdge} (hst : VECan n st) :
    ∃ tmp, mvmul s st = some tmp ∧ VECan n tmp ∧ tmp.vec = app1 R t (matVec n (op.mat n) st.vec) ∧
      normSq tmp.w = nrm n (app1 R t (matVec n (op.mat n) st.vec)) := by
  obtain ⟨tmp, h1, h2, h3⟩ := mvmul_spec h.can.ok hst.ok
  have e : tmp.vec = app1 R t (matVec n (op.mat n) st.vec) := by
    funext a
    rw [h3, h.val]
  exact ⟨tmp, h1, h2, e, by rw [← nrm_vec h2, e]⟩

/-- The value of `F` on the normalised product. -/
def unitVal (n t : ℕ) (φ : State) (F : Option VEdge → ℂ) (T : (Bits → Bits → ℂ) → Bits → Bits → ℂ) (x y : Bits) (R : Mat1) : ℂ :=
  if nrm n (app1 R t φ) = 0 then F (some ⟨.term, 1⟩) else T (pure (app1 R t φ)) x y / (nrm n (app1 R t φ) : ℂ)

section

variable {n t : ℕ} {F : Option VEdge → ℂ} {T : (Bits → Bits → ℂ) → Bits → Bits → ℂ} {x y : Bits}

theorem unit_F (hT : Lin T) (hF : ∀ e, VECan n e → normSq e.w = 1 → F (some e) = T (pure e.vec) x y)
    {tmp : VEdge} (h : VECan n tmp) {φ : State} {R : Mat1} (hv : tmp.vec = app1 R t φ)
    (hn : normSq tmp.w = nrm n (app1 R t φ)) : F (some ⟨tmp.p, 1⟩) = unitVal n t φ F T x y R := by
  unfold unitVal
  rw [← hn, ← hv]
  by_cases h0 : tmp.w = 0
  · rw [if_pos (by simp [h0]), h.1 h0]
  · rw [if_neg (by simpa using h0), hF _ (unit_can h h0) (by simp)]
    have e : tmp.vec = fun x => tmp.w * (⟨tmp.p, 1⟩ : VEdge).vec x := by
      funext x; simp [Edge.vec]
    have h2 := hT (normSq tmp.w) 0 (pure (⟨tmp.p, 1⟩ : VEdge).vec) fun _ _ => 0
    simp only [zero_mul, add_zero] at h2
    rw [e, pure_smul, h2]
    have : (normSq tmp.w : ℂ) ≠ 0 := by exact_mod_cast (by simpa using h0)
    field_simp

theorem nrm_unitVal (hT : Lin T) (φ : State) (R : Mat1)
    (hz : nrm n (app1 R t φ) = 0 → app1 R t φ = fun _ => 0) :
    (nrm n (app1 R t φ) : ℂ) * unitVal n t φ F T x y R = T (pure (app1 R t φ)) x y := by
  unfold unitVal
  by_cases h : nrm n (app1 R t φ) = 0
  · rw [if_pos h, h, hz h, pure_zero, hT.zero]
    simp
  · rw [if_neg h]
    have : (nrm n (app1 R t φ) : ℂ) ≠ 0 := by exact_mod_cast h
    field_simp

end

theorem rep_self {n t : ℕ} {op : MEdge} (hop : MECan n op) : RepR n t op op 1 := ⟨hop, fun ψ a => by rw [app1_one]⟩

/-- A vector of a diagram that is zero after `R` has norm zero only if it vanishes. -/
theorem app1_zero {n t : ℕ} (ht : t < n) {op : MEdge} (hop : MECan n op) {st : VEdge} (hst : VECan n st) (R : Mat1)
    (h : nrm n (app1 R t (matVec n (op.mat n) st.vec)) = 0) : app1 R t (matVec n (op.mat n) st.vec) = fun _ => 0 := by
  obtain ⟨s, -, hs⟩ := stack_spec ht (rep_self hop) R
  rw [mul_one] at hs
  obtain ⟨tmp, -, h2, h3, h4⟩ := rep_mvmul hs hst
  rw [h] at h4
  rw [← h3]
  funext a
  simp [Edge.vec, Complex.normSq_eq_zero.1 h4]

theorem stepTarget_E {N : StochNoise} (hN : N.Ok) {multi : Bool} {n t : ℕ} (ht : t < n) {κ : ℝ} (hS : Split N multi n t κ)
    {op : MEdge} (hop : MECan n op) {st : VEdge} (hst : VECan n st) (h1 : nrm n (matVec n (op.mat n) st.vec) = 1)
    {F : Option VEdge → ℂ} {T : (Bits → Bits → ℂ) → Bits → Bits → ℂ} (hT : Lin T) {x y : Bits}
    (hF : ∀ e, VECan n e → normSq e.w = 1 → F (some e) = T (pure e.vec) x y) :
    (N.stepTarget n multi t op st).E F = T (N.chanQ multi N.effects t (pure (matVec n (op.mat n) st.vec))) x y := by
  obtain ⟨q, hq0, hq1, hq, hq'⟩ := hS.norm _ h1
  have hz := app1_zero ht hop hst
  have hval := hS.val (pure (matVec n (op.mat n) st.vec))
  generalize hφ : matVec n (op.mat n) st.vec = φ at *
  set X := ((N.ops true multi N.effects).map fun r => (r.1 : ℂ) * unitVal n t φ F T x y (r.2 * 1)).sum with hX
  have second : (N.generate n t true multi N.effects (some op)).E (fun s' => (Rand.done (multiplyUnit s' st)).E F) = X := by
    refine generate_E hN ht true multi (fun s R hR => ?_) N.effects (rep_self hop)
    obtain ⟨tmp, k1, k2, k3, k4⟩ := rep_mvmul hR hst
    rw [hφ] at k3 k4
    simp only [Rand.E, multiplyUnit, Option.bind_some, k1, Option.map_some]
    exact unit_F hT hF k2 k3 k4
  unfold StochNoise.stepTarget
  rw [Rand.E_bind, generate_E hN ht false multi (g := fun R => ∫ u in (0 : ℝ)..1, if nrm n (app1 R t φ) < u then X
    else unitVal n t φ F T x y R) (fun s R hR => ?_) N.effects (rep_self hop)]
  · have hq2 : (1 - q : ℂ) * X = (κ : ℂ) * ((N.ops true multi N.effects).map fun r => (r.1 : ℂ) *
        T (chan [r.2] t (pure φ)) x y).sum := by
      rw [hX, ← List.sum_map_mul_left, ← List.sum_map_mul_left]
      congr 1
      refine List.map_congr_left fun r hr => ?_
      have e1 := congrArg (fun z : ℝ => (z : ℂ)) (hq' r hr)
      push_cast at e1
      rw [chan_pure, ← nrm_unitVal (F := F) hT φ r.2 (hz r.2), ← e1, mul_one]
      ring
    have e : ((N.ops false multi N.effects).map fun r => (r.1 : ℂ) * ∫ u in (0 : ℝ)..1,
        if nrm n (app1 (r.2 * 1) t φ) < u then X else unitVal n t φ F T x y (r.2 * 1)) =
        (N.ops false multi N.effects).map fun r => (r.1 : ℂ) * T (chan [r.2] t (pure φ)) x y + (r.1 : ℂ) * ((1 - q : ℂ) * X) := by
      refine List.map_congr_left fun r hr => ?_
      rw [mul_one, hq r hr, integral_two hq0 hq1 (a := unitVal n t φ F T x y r.2) (b := X)
        (fun u _ h => if_neg (by linarith)) (fun u h _ => if_pos h), chan_pure, ← nrm_unitVal (F := F) hT φ r.2 (hz r.2),
        hq r hr]
      ring
    rw [e, List.sum_map_add, List.sum_map_mul_right, ops_sum, one_mul, hq2]
    have L := fun flag => hT.sum (fun r : ℝ × Mat1 => ((r.1 : ℂ), chan [r.2] t (pure φ))) (N.ops flag multi N.effects)
    have e2 : N.chanQ multi N.effects t (pure φ) = fun x y => 1 * N.mixed false multi N.effects t (pure φ) x y +
        (κ : ℂ) * N.mixed true multi N.effects t (pure φ) x y := by
      funext x y
      rw [one_mul, hval]
    rw [e2, hT]
    simp only [one_mul]
    unfold StochNoise.mixed
    have L0 := congrFun₂ (L false) x y
    have L1 := congrFun₂ (L true) x y
    simp only at L0 L1
    rw [← L0, ← L1]
  · obtain ⟨tmp, k1, k2, k3, k4⟩ := rep_mvmul hR hst
    rw [hφ] at k3 k4
    simp only [Option.bind_some, k1, Rand.E]
    congr 1
    funext u
    rw [← k4]
    split_ifs
    · rw [Rand.E_bind]
      exact second
    · exact unit_F hT hF k2 k3 k4

/-- A normalised vector diagram. -/
def Unit (n : ℕ) (r : Option VEdge) : Prop := ∃ e, r = some e ∧ VECan n e ∧ normSq e.w = 1

theorem stepTarget_all {N : StochNoise} {multi : Bool} {n t : ℕ} (ht : t < n) {κ : ℝ} (hS : Split N multi n t κ)
    {op : MEdge} (hop : MECan n op) {st : VEdge} (hst : VECan n st) (h1 : nrm n (matVec n (op.mat n) st.vec) = 1) :
    (N.stepTarget n multi t op st).All (Unit n) := by
  obtain ⟨q, hq0, hq1, hq, hq'⟩ := hS.norm _ h1
  refine (generate_all ht false multi N.effects (rep_self hop)).bind ?_
  rintro _ ⟨s, c, hc, rfl, hs⟩
  obtain ⟨tmp, k1, k2, k3, k4⟩ := rep_mvmul hs hst
  simp only [Option.bind_some, k1]
  intro u hu0 hu1
  beta_reduce
  split_ifs with h
  · refine (generate_all ht true multi N.effects (rep_self hop)).bind ?_
    rintro _ ⟨s', c', hc', rfl, hs'⟩
    obtain ⟨tmp', j1, j2, j3, j4⟩ := rep_mvmul hs' hst
    simp only [multiplyUnit, Option.bind_some, j1, Option.map_some]
    refine ⟨_, rfl, unit_can j2 fun h0 => ?_, by simp⟩
    rw [mul_one] at j4 k4
    have := hq' c' hc'
    rw [← j4, h0, map_zero, mul_zero] at this
    rw [k4, hq c hc] at h
    linarith
  · exact ⟨_, rfl, unit_can k2 fun h0 => h (by rw [h0, map_zero]; exact hu0), by simp⟩

/-! ### All targets -/

theorem mecan_one {n : ℕ} : MECan n ⟨.term, 1⟩ :=
  ⟨fun h => absurd h one_ne_zero, fun _ => trivial⟩

theorem matVec_one {n : ℕ} {e : VEdge} (he : VECan n e) : matVec n ((⟨.term, 1⟩ : MEdge).mat n) e.vec = e.vec := by
  funext a
  rw [matVec, matVec_term_left 1 he.ok, one_mul]

theorem loop_E {N : StochNoise} (hN : N.Ok) {multi : Bool} {n : ℕ} {F : Option VEdge → ℂ} {x y : Bits}
    (hg : GoodEffects N.effects) (hj : Noise.ampDamp ∈ N.effects → N.Jump multi) :
    ∀ (ts : List ℕ) (t : ℕ), (∀ q ∈ t :: ts, q < n) → ∀ {op : MEdge} (_ : MECan n op) {st : VEdge} (_ : VECan n st)
      (_ : nrm n (matVec n (op.mat n) st.vec) = 1) {T : (Bits → Bits → ℂ) → Bits → Bits → ℂ} (_ : Lin T)
      (_ : ∀ e, VECan n e → normSq e.w = 1 → F (some e) = T (pure e.vec) x y),
      (N.loop n multi (t :: ts) op st).E F = T (N.channel multi (t :: ts) (pure (matVec n (op.mat n) st.vec))) x y := by
  intro ts
  induction ts with
  | nil =>
    intro t ht op hop st hst h1 T hT hF
    have ht := ht t (by simp)
    obtain ⟨κ, hS⟩ := split_good (multi := multi) hN hj hg ht
    rw [StochNoise.loop, Rand.E_bind]
    exact stepTarget_E hN ht hS hop hst h1 hT hF
  | cons t' ts ih =>
    intro t ht op hop st hst h1 T hT hF
    have ht0 := ht t (by simp)
    obtain ⟨κ, hS⟩ := split_good (multi := multi) hN hj hg ht0
    rw [StochNoise.loop, Rand.E_bind]
    refine stepTarget_E hN ht0 hS hop hst h1 (hT.comp (lin_channel N multi (t' :: ts))) fun e he h => ?_
    rw [ih t' (fun q hq => ht q (List.mem_cons_of_mem _ hq)) mecan_one he (by rw [matVec_one he, nrm_vec he, h]) hT hF,
      matVec_one he]

theorem loop_all {N : StochNoise} (hN : N.Ok) {multi : Bool} {n : ℕ}
    (hg : GoodEffects N.effects) (hj : Noise.ampDamp ∈ N.effects → N.Jump multi) :
    ∀ (ts : List ℕ) (t : ℕ), (∀ q ∈ t :: ts, q < n) → ∀ {op : MEdge} (_ : MECan n op) {st : VEdge} (_ : VECan n st)
      (_ : nrm n (matVec n (op.mat n) st.vec) = 1), (N.loop n multi (t :: ts) op st).All (Unit n) := by
  intro ts
  induction ts with
  | nil =>
    intro t ht op hop st hst h1
    have ht := ht t (by simp)
    obtain ⟨κ, hS⟩ := split_good (multi := multi) hN hj hg ht
    refine (stepTarget_all ht hS hop hst h1).bind ?_
    rintro _ ⟨e, rfl, he, h⟩
    exact ⟨e, rfl, he, h⟩
  | cons t' ts ih =>
    intro t ht op hop st hst h1
    have ht0 := ht t (by simp)
    obtain ⟨κ, hS⟩ := split_good (multi := multi) hN hj hg ht0
    refine (stepTarget_all ht0 hS hop hst h1).bind ?_
    rintro _ ⟨e, rfl, he, h⟩
    exact ih t' (fun q hq => ht q (List.mem_cons_of_mem _ hq)) mecan_one he (by rw [matVec_one he, nrm_vec he, h])

end MQT.DD

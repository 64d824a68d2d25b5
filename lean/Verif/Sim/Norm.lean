/-
Unitary operations preserve the norm of states on `n` qubits.

Used for measurements: `measureOneCollapsing` demands normalised states.
-/
import Verif.Sim.Simulate
import Verif.DD.StochasticProof

set_option autoImplicit false

noncomputable section

open Classical
open Function (update)
open Complex (normSq)
open scoped ComplexConjugate

namespace MQT.Sim

open MQT.IR MQT.DD MQT.Opt

/-- Sums are equal if they are equal for every choice of the other qubits than `a` and `b`. -/
theorem sumB_four {n a b : ℕ} (ha : a < n) (hb : b < n) {f g : Bits → ℝ}
    (h : ∀ z, ∑ k : Bool × Bool, f (update (update z a k.1) b k.2) = ∑ k : Bool × Bool, g (update (update z a k.1) b k.2))
    (s : Bits) : sumB n f s = sumB n g s := by
  have e1 : ∀ f : Bits → ℝ, sumB n f s = sumB n (fun z => (f (update z b false) + f (update z b true)) / 2) s := by
    intro f
    apply sumB_pair hb
    intro z
    simp only [Function.update_idem]
    ring
  rw [e1 f, e1 g]
  apply sumB_pair ha
  intro z
  have hz := h z
  rw [Fintype.sum_prod_type, Fintype.sum_prod_type] at hz
  simp only [Fintype.sum_bool] at hz
  linarith

/-- A controlled version of `A` preserves the norm if `A` preserves the norm pairwise. -/
theorem nrm_ctl1 {n t : ℕ} (ht : t < n) {cs : Finset Ctrl} (hc : t ∉ ctrlQubits cs) {M : Mat1} (hM : Unitary M) (φ : State) :
    nrm n (ctl cs (app1 M t) φ) = nrm n φ := by
  unfold nrm
  apply sumB_pair ht
  intro z
  have hs : ∀ b, Sat cs (update z t b) ↔ Sat cs z := sat_update hc z
  simp only [ctl, hs]
  by_cases h : Sat cs z
  · simp only [h, if_true, app1, Function.update_self, Function.update_idem, Fintype.sum_bool]
    generalize φ (update z t false) = a
    generalize φ (update z t true) = b
    have e : ∀ a b, (M.conjTranspose * M) a b = conj (M false a) * M false b + conj (M true a) * M true b := by
      intro a b
      rw [Matrix.mul_apply, Fintype.sum_bool, add_comm]
      rfl
    have h00 := (e false false).symm.trans (congrFun₂ hM.2 false false)
    have h01 := (e false true).symm.trans (congrFun₂ hM.2 false true)
    have h10 := (e true false).symm.trans (congrFun₂ hM.2 true false)
    have h11 := (e true true).symm.trans (congrFun₂ hM.2 true true)
    simp only [Matrix.one_apply, if_true, Bool.false_eq_true, Bool.true_eq_false, if_false] at h00 h01 h10 h11
    apply Complex.ofReal_injective
    simp only [Complex.ofReal_add, ← Complex.mul_conj, map_add, map_mul]
    linear_combination (a * conj a) * h00 + (b * conj b) * h11 + (b * conj a) * h01 + (a * conj b) * h10
  · simp only [h, if_false]

/-- Unitary matrices preserve the norm of vectors. -/
theorem unitary_norm {M : Mat2} (hM : Unitary M) (v : Bool × Bool → ℂ) :
    ∑ k, normSq (∑ b, M k b * v b) = ∑ k, normSq (v k) := by
  apply Complex.ofReal_injective
  push_cast
  simp only [← Complex.mul_conj, map_sum, map_mul, Finset.sum_mul_sum]
  have e : ∀ a b, (M.conjTranspose * M) a b = ∑ k, conj (M k a) * M k b := by
    intro a b
    rw [Matrix.mul_apply]
    rfl
  rw [Finset.sum_comm]
  have : ∀ i : Bool × Bool, ∑ k, ∑ j, M k i * v i * (conj (M k j) * conj (v j)) = v i * conj (v i) := by
    intro i
    rw [Finset.sum_comm]
    have h : ∀ j, ∑ k, M k i * v i * (conj (M k j) * conj (v j)) = if j = i then v i * conj (v i) else 0 := by
      intro j
      have := (e j i).symm.trans (congrFun₂ hM.2 j i)
      rw [Matrix.one_apply] at this
      calc ∑ k, M k i * v i * (conj (M k j) * conj (v j)) = (v i * conj (v j)) * ∑ k, conj (M k j) * M k i := by
            rw [Finset.mul_sum]
            exact Finset.sum_congr rfl fun k _ => by ring
        _ = _ := by
            rw [this]
            split_ifs with hji
            · rw [hji, mul_one]
            · rw [mul_zero]
    simp only [h, Finset.sum_ite_eq', Finset.mem_univ, if_true]
  exact Finset.sum_congr rfl fun i _ => this i

theorem nrm_ctl2 {n a b : ℕ} (ha : a < n) (hb : b < n) (hab : a ≠ b) {cs : Finset Ctrl} (hca : a ∉ ctrlQubits cs)
    (hcb : b ∉ ctrlQubits cs) {M : Mat2} (hM : Unitary M) (φ : State) :
    nrm n (ctl cs (app2 M a b) φ) = nrm n φ := by
  unfold nrm
  apply sumB_four ha hb
  intro z
  have hs : ∀ k : Bool × Bool, Sat cs (update (update z a k.1) b k.2) ↔ Sat cs z := by
    intro k
    rw [sat_update hcb, sat_update hca]
  simp only [ctl, hs]
  by_cases h : Sat cs z
  · simp only [h, if_true, app2]
    have e1 : ∀ k : Bool × Bool, update (update z a k.1) b k.2 a = k.1 := by
      intro k
      rw [Function.update_of_ne hab, Function.update_self]
    have e2 : ∀ k l : Bool × Bool, update (update (update (update z a k.1) b k.2) a l.1) b l.2 = update (update z a l.1) b l.2 := by
      intro k l
      funext q
      by_cases h1 : q = b
      · subst h1; simp
      · by_cases h2 : q = a
        · subst h2; simp [Function.update_of_ne h1]
        · simp [Function.update_of_ne h1, Function.update_of_ne h2]
    simp only [e1, e2, Function.update_self]
    exact unitary_norm hM fun k => φ (update (update z a k.1) b k.2)
  · simp only [h, if_false]

theorem nrm_phase (n : ℕ) (cs : Finset Ctrl) (θ : ℝ) (φ : State) :
    nrm n (ctl cs (phase ⟨Real.cos θ, Real.sin θ⟩) φ) = nrm n φ := by
  unfold nrm
  congr 1
  funext z
  unfold ctl phase
  split_ifs
  · rw [map_mul]
    have : normSq ⟨Real.cos θ, Real.sin θ⟩ = 1 := by
      rw [Complex.normSq_mk]
      nlinarith [Real.sin_sq_add_cos_sq θ]
    rw [this, one_mul]
  · rfl

/-- Standard operations on qubits below `n` preserve the norm. -/
theorem nrm_std {n : ℕ} {o : StdOp ℝ} (h : StdGood (· < n) o) {f : State → State} (hf : o.denote = some f) (φ : State) :
    nrm n (f φ) = nrm n φ := by
  have hne : ∀ q ∈ o.targets, q ∉ ctrlQubits o.controls := fun q hq hc => h.wf.disj _ hq hc
  rcases StdOp.denote_cases hf with ⟨_, rfl⟩ | ⟨_, θ, _, rfl⟩ | ⟨h1, q, M, e1, e2, rfl⟩ |
    ⟨h2, q0, q1, M, e1, e2, rfl⟩
  · rfl
  · exact nrm_phase n _ θ φ
  · have hq : q < n := h.cov _ (StdOp.mem_used.2 (Or.inl (by rw [e1]; simp)))
    exact nrm_ctl1 hq (hne q (by rw [e1]; simp)) (gate1_unitary _ _ _ e2) φ
  · have hnd := h.wf.nodup
    rw [e1] at hnd
    exact nrm_ctl2 (h.cov _ (StdOp.mem_used.2 (Or.inl (by rw [e1]; simp)))) (h.cov _ (StdOp.mem_used.2 (Or.inl (by rw [e1]; simp))))
      (by simpa using hnd) (hne q0 (by rw [e1]; simp)) (hne q1 (by rw [e1]; simp)) (gate2_unitary _ _ _ e2) φ

mutual
/-- Unitary operations preserve the norm. -/
theorem nrm_acts {n : ℕ} (op : Op ℝ) (h : Good (· < n) op) (c c' : Cfg) (hc : exec op c = some c') : nrm n c'.st = nrm n c.st := by
  match op with
  | .std o =>
    rw [Good] at h
    rw [exec, Option.map_eq_some_iff] at hc
    obtain ⟨f, hf, rfl⟩ := hc
    exact nrm_std h hf _
  | .compound ops _ =>
    rw [Good] at h
    rw [exec] at hc
    exact nrm_actsL ops h c c' hc
  | .measure _ _ => rw [Good] at h; exact h.elim
  | .reset _ => rw [Good] at h; exact h.elim
  | .classic _ _ => rw [Good] at h; exact h.elim
theorem nrm_actsL {n : ℕ} (l : List (Op ℝ)) (h : GoodL (· < n) l) (c c' : Cfg) (hc : run l c = some c') :
    nrm n c'.st = nrm n c.st := by
  match l with
  | [] =>
    rw [run_nil] at hc
    cases hc
    rfl
  | op :: l =>
    rw [GoodL] at h
    rw [run_cons, Option.bind_eq_some_iff] at hc
    obtain ⟨d, h1, h2⟩ := hc
    rw [nrm_actsL l h.2 d c' h2, nrm_acts op h.1 c d h1]
end

/-- Renaming the `n` qubits preserves sums over all assignments. -/
theorem sumB_ren {α : Type} [AddCommMonoid α] {n : ℕ} {σ : Equiv.Perm ℕ} (hσ : ∀ q < n, σ q < n) (f : Bits → α) :
    sumB n (fun z => f (z ∘ σ)) (fun _ => false) = sumB n f fun _ => false := by
  rw [sumB_eq, sumB_eq]
  let g : Fin n → Fin n := fun i => ⟨σ i, hσ i i.2⟩
  have hg : Function.Bijective g := by
    rw [← Finite.injective_iff_bijective]
    intro i j hij
    exact Fin.ext (σ.injective (congrArg Fin.val hij))
  have hout : ∀ q, n ≤ q → n ≤ σ q := by
    intro q hq
    by_contra hlt
    push Not at hlt
    obtain ⟨i, hi⟩ := hg.2 ⟨σ q, hlt⟩
    have : (i : ℕ) = q := σ.injective (congrArg Fin.val hi)
    omega
  let G : (Fin n → Bool) ≃ (Fin n → Bool) := (Equiv.ofBijective g hg).arrowCongr (Equiv.refl Bool)
  rw [← Equiv.sum_comp G]
  refine Finset.sum_congr rfl fun t _ => ?_
  congr 1
  funext q
  show fill (G t) _ (σ q) = fill t _ q
  unfold fill
  by_cases hq : q < n
  · rw [dif_pos hq, dif_pos (hσ q hq)]
    show t ((Equiv.ofBijective g hg).symm (g ⟨q, hq⟩)) = _
    rw [Equiv.ofBijective_symm_apply_apply]
  · rw [dif_neg hq, dif_neg (by have := hout q (not_lt.1 hq); omega)]

theorem nrm_ren {n : ℕ} {σ : Equiv.Perm ℕ} (hσ : ∀ q < n, σ q < n) (φ : State) : nrm n (ren σ φ) = nrm n φ :=
  sumB_ren hσ fun z => normSq (φ z)

end MQT.Sim

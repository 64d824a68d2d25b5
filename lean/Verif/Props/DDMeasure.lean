/-
Measurement of states given as decision diagrams (C44).
-/
import Verif.DD.Measure
import Mathlib.MeasureTheory.Measure.Lebesgue.Basic

set_option autoImplicit false

noncomputable section

open Classical
open Function (update)
open Complex (normSq)

namespace MQT.DD

open MQT.IR (Bits State)
open MeasureTheory (volume)

/-- **C44.** For every non-zero state and every qubit of it, the two numbers computed by
`determineMeasurementProbabilities` are the total squared amplitudes of the basis states with
that qubit 0 and 1. -/
theorem c44_probabilities {n idx : ℕ} {e : VEdge} (he : VECan n e) (h0 : e.w ≠ 0) (hi : idx < n) :
    determineMeasurementProbabilities e idx = some
      (∑ t : Fin n → Bool, if t ⟨idx, hi⟩ = false then normSq (e.vec (fill t fun _ => false)) else 0,
        ∑ t : Fin n → Bool, if t ⟨idx, hi⟩ = true then normSq (e.vec (fill t fun _ => false)) else 0)
      := by
  rw [determine_spec he h0 hi]
  have hb : ∀ b, bornOne n idx b e = ∑ t : Fin n → Bool,
      if t ⟨idx, hi⟩ = b then normSq (e.vec (fill t fun _ => false)) else 0 := by
    intro b
    unfold bornOne
    rw [sumB_eq]
    apply Finset.sum_congr rfl
    intro t _
    have : fill t (fun _ => false) idx = t ⟨idx, hi⟩ := by unfold fill; rw [dif_pos hi]
    rw [this]
  rw [hb, hb]

/-- **C44.** On a qubit the state does not have, the traversal runs into the terminal. -/
theorem c44_out_of_range_undefined {n idx : ℕ} {e : VEdge} (he : VECan n e) (hi : n ≤ idx) :
    determineMeasurementProbabilities e idx = none := by
  have key : ∀ (k : ℕ) (s : Bfs), (s.queue.map Node.size).sum = k →
      (∀ p ∈ s.queue, ∃ m ≤ n, VCan m p) → Bfs.run idx s = none := by
    intro k
    induction k using Nat.strong_induction_on with
    | _ k IH =>
      intro s hk hs
      rw [Bfs.run]
      split
      · rfl
      · rfl
      · rename_i v w c rest hq
        obtain ⟨m, hm, hc⟩ := hs (.node v w c) (by rw [hq]; exact List.mem_cons_self)
        obtain ⟨rfl, _, h3⟩ := hc
        rw [if_neg (by omega)]
        refine IH _ ?_ _ rfl ?_
        · rw [← hk, hq]
          refine lt_of_le_of_lt (Bfs.visit_size _ _ _ _) ?_
          refine lt_of_le_of_lt (Nat.add_le_add_right (Bfs.visit_size _ _ _ _) _) ?_
          simp [Node.size]
          omega
        · have hvis : ∀ (s : Bfs) (x : ℝ) (b : Bool), (∀ p ∈ s.queue, ∃ m ≤ n, VCan m p) →
              ∀ p ∈ (s.visit x (w b) (c b)).queue, ∃ m ≤ n, VCan m p := by
            intro s x b hs
            unfold Bfs.visit
            split_ifs with h1 h2
            · exact hs
            · exact hs
            · intro p hp
              rcases List.mem_append.1 hp with hp | hp
              · exact hs p hp
              · rw [List.mem_singleton] at hp
                rw [hp]
                exact ⟨v, by omega, (h3 b).2 h1⟩
          exact hvis _ _ _ (hvis _ _ _ (fun p hp => hs p (by
            rw [hq]; exact List.mem_cons_of_mem _ hp)))
  unfold determineMeasurementProbabilities
  rw [key _ _ rfl]
  · rfl
  · intro p hp
    rw [List.mem_singleton] at hp
    rw [hp]
    by_cases h0 : e.w = 0
    · exact ⟨0, Nat.zero_le _, by rw [he.1 h0]; rfl⟩
    · exact ⟨n, le_rfl, he.2 h0⟩

/-- **C44.** `measureOneCollapsing` on a normalised state: with a number drawn from `[0, 1)` the
outcome is 0 exactly if the number is below the probability of 0; the new state is the
projection onto the outcome divided by the square root of its probability, which is positive,
and is normalised again. -/
theorem c44_measure_one {nq n idx : ℕ} {e : VEdge} (he : VECan n e) (hn : normSq e.w = 1)
    (hi : idx < n) (hq : n ≤ nq) {eps draw : ℝ} (heps : 0 ≤ eps)
    (hd : draw ∈ Set.Ico (0 : ℝ) 1) :
    ∃ b r, measureOne nq e idx eps draw = .ok (b, r) ∧
      (b = false ↔ draw < bornOne n idx false e) ∧ 0 < bornOne n idx b e ∧ VECan n r ∧
      (∀ z, r.vec z = if z idx = b then e.vec z / ((√(bornOne n idx b e) : ℝ) : ℂ) else 0) ∧
      normSq r.w = 1 := by
  have h0 : e.w ≠ 0 := fun h => by rw [h, map_zero] at hn; exact zero_ne_one hn
  have hsum := born_sum (idx := idx) he
  rw [hn] at hsum
  have hpos : 0 < bornOne n idx (!decide (draw < bornOne n idx false e)) e := by
    by_cases hlt : draw < bornOne n idx false e
    · simp only [hlt, decide_true, Bool.not_true]
      exact lt_of_le_of_lt hd.1 hlt
    · simp only [hlt, decide_false, Bool.not_false]
      have := hd.2
      push Not at hlt
      linarith
  obtain ⟨r, h1, h2, h3⟩ := collapse_spec (nq := nq) he hi hq hpos
    (!decide (draw < bornOne n idx false e))
  refine ⟨!decide (draw < bornOne n idx false e), r, ?_, by simp, hpos, h2, h3, ?_⟩
  · unfold measureOne
    rw [determine_spec he h0 hi]
    simp only
    rw [if_neg (by rw [hsum]; simpa using heps), hsum, div_one]
    have hif : (if (!decide (draw < bornOne n idx false e)) = true then bornOne n idx true e
        else bornOne n idx false e) = bornOne n idx (!decide (draw < bornOne n idx false e)) e := by
      cases (!decide (draw < bornOne n idx false e)) <;> simp
    rw [hif, h1]
  · generalize (!decide (draw < bornOne n idx false e)) = b at *
    have hr := born_sum (idx := idx) h2
    have e1 : ∀ d, bornOne n idx d r = if d = b then 1 else 0 := by
      intro d
      unfold bornOne
      have : ∀ z : Bits, (if z idx = d then normSq (r.vec z) else 0)
          = (if d = b then (bornOne n idx b e)⁻¹ else 0)
            * (if z idx = b then normSq (e.vec z) else 0) := by
        intro z
        rw [h3 z]
        by_cases hz : z idx = d
        · by_cases hdb : d = b
          · rw [if_pos hz, if_pos hdb, if_pos (hz.trans hdb), if_pos (hz.trans hdb), map_div₀,
              Complex.normSq_ofReal, Real.mul_self_sqrt hpos.le, div_eq_inv_mul]
          · rw [if_pos hz, if_neg hdb, if_neg (fun h => hdb (hz.symm.trans h)), map_zero, zero_mul]
        · by_cases hdb : d = b
          · rw [if_neg hz, if_neg (fun h => hz (h.trans hdb.symm)) (c := z idx = b), mul_zero]
          · rw [if_neg hz, if_neg hdb, zero_mul]
      simp only [this]
      rw [sumB_mul_left']
      change _ * bornOne n idx b e = _
      split_ifs
      · exact inv_mul_cancel₀ hpos.ne'
      · rw [zero_mul]
    rw [← hr, e1, e1]
    cases b <;> simp

/-- **C44.** `measureAll` never fails on a non-zero state with exactly normalised nodes. -/
theorem c44_measure_all_total {n : ℕ} {e : VEdge} (he : VECan n e) (h0 : e.w ≠ 0) (coll : Bool)
    {eps : ℝ} (heps : 0 ≤ eps) {draw : ℕ → ℝ} (hd : ∀ i < n, draw i ∈ Set.Ico (0 : ℝ) 1) :
    ∃ r e', measureAll e coll eps draw = .ok (r, e') ∧
      (coll = true → 0 < n → VECan n e' ∧
        ∀ z, e'.vec z = if ∀ q < n, z q = r q then 1 else 0) ∧
      (coll = false → e' = e) ∧
      ∀ s : Bits, (∀ q < n, r q = s q) ↔ ∀ i < n, draw i ∈ interval e.p s i := by
  unfold measureAll
  rw [if_neg (fun h => h0 h.2)]
  have hc := he.2 h0
  cases n with
  | zero =>
    rw [hc.zero_cases]
    exact ⟨_, _, rfl, fun _ h => absurd h (lt_irrefl 0), fun _ => rfl, fun s => by simp⟩
  | succ n =>
    obtain ⟨w, c, hp, _, _⟩ := hc.cases
    rw [hp] at hc ⊢
    obtain ⟨r, h1, _, h3⟩ := measureLoop_spec heps (n + 1) _ hc hd (fun _ => false) (fun _ _ => rfl)
    simp only [h1]
    refine ⟨r, _, rfl, fun h _ => ?_, fun h => by simp [h], h3⟩
    rw [if_pos h]
    exact collapsed_spec (n + 1) r

/-- **C44.** `measureAll` follows the Born rule: if the numbers are drawn independently and
uniformly from `[0, 1)`, the probability (volume) of the draws that produce the bit string `s`
is the squared amplitude of `s` divided by the squared norm of the state. -/
theorem c44_measure_all_born {n : ℕ} {e : VEdge} (he : VECan n e) (h0 : e.w ≠ 0) (coll : Bool)
    {eps : ℝ} (heps : 0 ≤ eps) (s : Bits) :
    volume {d : Fin n → ℝ | (∀ i, d i ∈ Set.Ico (0 : ℝ) 1) ∧ ∃ r e',
        measureAll e coll eps (fun i => if h : i < n then d ⟨i, h⟩ else 0) = .ok (r, e') ∧
          ∀ q < n, r q = s q}
      = ENNReal.ofReal (normSq (e.vec s) / normSq e.w) := by
  have hc := he.2 h0
  have hset : {d : Fin n → ℝ | (∀ i, d i ∈ Set.Ico (0 : ℝ) 1) ∧ ∃ r e',
        measureAll e coll eps (fun i => if h : i < n then d ⟨i, h⟩ else 0) = .ok (r, e') ∧
          ∀ q < n, r q = s q}
      = Set.univ.pi (fun i : Fin n => interval e.p s i) := by
    ext d
    simp only [Set.mem_ofPred_eq, Set.mem_pi, Set.mem_univ, true_imp_iff]
    have hdr : (∀ i, d i ∈ Set.Ico (0 : ℝ) 1) →
        ∀ i < n, (if h : i < n then d ⟨i, h⟩ else 0) ∈ Set.Ico (0 : ℝ) 1 := by
      intro h i hi
      rw [dif_pos hi]
      exact h ⟨i, hi⟩
    constructor
    · rintro ⟨h1, r, e', h2, h3⟩ i
      obtain ⟨r', e'', h4, _, _, h5⟩ := c44_measure_all_total he h0 coll heps (hdr h1)
      rw [h2] at h4
      cases h4
      have := (h5 s).1 h3 i i.2
      rwa [dif_pos i.2] at this
    · intro h
      have hd1 : ∀ i, d i ∈ Set.Ico (0 : ℝ) 1 := by
        intro i
        have hm := h i
        have hp := p0At_mem hc s i
        unfold interval at hm
        split_ifs at hm
        · exact ⟨hp.1.trans hm.1, hm.2⟩
        · exact ⟨hm.1, lt_of_lt_of_le hm.2 hp.2⟩
      obtain ⟨r', e'', h4, _, _, h5⟩ := c44_measure_all_total he h0 coll heps (hdr hd1)
      refine ⟨hd1, r', e'', h4, (h5 s).2 (fun i hi => ?_)⟩
      rw [dif_pos hi]
      exact h ⟨i, hi⟩
  have hvol : ∀ i, volume (interval e.p s i) = ENNReal.ofReal (ilen e.p s i) := by
    intro i
    unfold interval ilen
    split_ifs
    · rw [Real.volume_Ico]
    · rw [Real.volume_Ico, sub_zero]
  have hnn : ∀ i, 0 ≤ ilen e.p s i := by
    intro i
    have hp := p0At_mem hc s i
    unfold ilen
    split_ifs
    · linarith [hp.2]
    · exact hp.1
  rw [hset, MeasureTheory.volume_pi_pi]
  simp only [hvol]
  rw [← ENNReal.ofReal_prod_of_nonneg (fun i _ => hnn _), Fin.prod_univ_eq_prod_range
    (fun i => ilen e.p s i), prod_ilen hc]
  congr 1
  unfold Edge.vec
  rw [map_mul, mul_div_cancel_left₀ _ (normSq_ne_zero h0)]

/-- **C44.** `assignProbabilities` started with an empty map returns the squared norm of the
state. -/
theorem c44_assign {n : ℕ} {e : VEdge} (he : VECan n e) :
    (assignProbs e.p e.w (fun _ => none)).1
      = ∑ t : Fin n → Bool, normSq (e.vec (fill t fun _ => false)) := by
  rw [(assignProbs_spec e.p e.w _ (fun q x h => by simp at h)).1,
    ← sumB_eq n (fun z => normSq (e.vec z))]
  unfold Edge.vec
  simp only [map_mul]
  rw [sumB_mul_left']
  by_cases h0 : e.w = 0
  · rw [h0]; simp
  · rw [vtot_can (he.2 h0), (he.2 h0).total]

/-- Measuring `|1⟩`: probabilities 0 and 1. -/
example : determineMeasurementProbabilities (collapsed 1 (fun _ => true)) 0 = some (0, 1) := by
  obtain ⟨h1, h2⟩ := collapsed_spec 1 (fun _ => true)
  have h0 : (collapsed 1 (fun _ => true)).w ≠ 0 := by
    intro h
    have := h2 (fun _ => true)
    unfold Edge.vec at this
    rw [h] at this
    simp at this
  rw [determine_spec h1 h0 (by omega)]
  simp [bornOne, sumB, h2]

/-- Measuring all qubits of `|1⟩` gives 1, whatever is drawn. -/
example (x : ℝ) (hx : x ∈ Set.Ico (0 : ℝ) 1) :
    ∃ r e', measureAll (collapsed 1 (fun _ => true)) false 0 (fun _ => x) = .ok (r, e') := by
  obtain ⟨h1, h2⟩ := collapsed_spec 1 (fun _ => true)
  have h0 : (collapsed 1 (fun _ => true)).w ≠ 0 := by
    intro h
    have := h2 (fun _ => true)
    unfold Edge.vec at this
    rw [h] at this
    simp at this
  obtain ⟨r, e', h, _⟩ := c44_measure_all_total h1 h0 false le_rfl (draw := fun _ => x)
    (fun _ _ => hx)
  exact ⟨r, e', h⟩

end MQT.DD

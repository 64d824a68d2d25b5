/-
When `buildFunctionality` (FunctionalityConstruction.cpp 607-624) returns.
-/
import Verif.ZX.BuildMain

set_option autoImplicit false

noncomputable section

open Classical

open Function (update)

namespace MQT.ZX

open MQT.IR MQT.Opt Diagram MQT.IR.Layout
open Diagram hiding phase

/-! ### Conversion of doubles -/

namespace PiRational

/-- Doubles that can be converted, also after they have been halved: neither huge nor too close to zero. -/
def Fine (x : ℝ) : Prop := |x| < tol ∨ (1 / 10 ^ 8 ≤ |x| ∧ |x| ≤ 10 ^ 9)

theorem roundAway_close (x : ℝ) : |(roundAway x : ℝ) - x| ≤ 1 / 2 := by
  unfold roundAway
  rw [abs_le]
  split_ifs
  · have h1 := Int.floor_le (x + 1 / 2); have h2 := Int.lt_floor_add_one (x + 1 / 2)
    constructor <;> linarith
  · have h1 := Int.le_ceil (x - 1 / 2); have h2 := Int.ceil_lt_add_one (x - 1 / 2)
    constructor <;> linarith

theorem toInt32_ok {x : ℤ} (h : |(x : ℝ)| < 2 ^ 31) : toInt32 x = .ok x := by
  unfold toInt32
  rw [abs_lt] at h
  rw [if_pos]
  constructor
  · have := h.1.le; exact_mod_cast this
  · exact_mod_cast h.2

theorem ofReal_ok {x : ℝ} (h : |x| < tol ∨ (15 / 10 ^ 10 ≤ |x| ∧ |x| ≤ 10 ^ 9)) : ∃ c, ofReal x = .ok c := by
  have hp1 := Real.pi_gt_three
  have hp2 := Real.pi_lt_d2
  unfold ofReal
  by_cases h1 : |x| < tol
  · rw [if_pos h1]; exact ⟨_, rfl⟩
  rw [if_neg h1]
  rcases h with h | ⟨h2, h3⟩
  · exact absurd h h1
  simp only
  have hx : 0 < |x| := lt_of_lt_of_le (by norm_num) h2
  have hm : |Real.pi / x| ≤ 32 / 15 * 10 ^ 9 := by
    rw [abs_div, abs_of_pos Real.pi_pos, div_le_iff₀ hx]
    nlinarith
  by_cases h4 : |(roundAway (Real.pi / x) : ℝ) - Real.pi / x| < tol
  · rw [if_pos h4]
    have hr : |(roundAway (Real.pi / x) : ℝ)| < 2 ^ 31 := by
      have := abs_sub_abs_le_abs_sub (roundAway (Real.pi / x) : ℝ) (Real.pi / x)
      have ht : tol < 1 := by unfold tol; norm_num
      have : |(roundAway (Real.pi / x) : ℝ)| < 32 / 15 * 10 ^ 9 + 1 := by linarith
      refine this.trans ?_
      norm_num
    rw [toInt32_ok hr]
    simp only
    unfold ofFrac
    rw [if_neg]
    · exact ⟨_, rfl⟩
    · intro h0
      rw [h0, Int.cast_zero, zero_sub, abs_neg, abs_div, abs_of_pos Real.pi_pos, div_lt_iff₀ hx] at h4
      unfold tol at h4
      nlinarith
  · rw [if_neg h4]
    have hr : |(trunc (x / Real.pi / 2) : ℝ)| < 2 ^ 31 := by
      have h5 := trunc_close (x / Real.pi / 2)
      have h6 := abs_sub_abs_le_abs_sub (trunc (x / Real.pi / 2) : ℝ) (x / Real.pi / 2)
      have h7 : |x / Real.pi / 2| ≤ 10 ^ 9 := by
        rw [abs_div, abs_div, abs_of_pos Real.pi_pos, abs_two, div_div, div_le_iff₀ (by positivity)]
        nlinarith
      have : |(trunc (x / Real.pi / 2) : ℝ)| < 10 ^ 9 + 1 := by linarith
      refine this.trans ?_
      norm_num
    rw [toInt32_ok hr]
    exact ⟨_, rfl⟩

theorem Fine.ok {x : ℝ} (h : Fine x) : ∃ c, ofReal x = .ok c := by
  apply ofReal_ok
  rcases h with h | ⟨h1, h2⟩
  · exact .inl h
  · exact .inr ⟨le_trans (by norm_num) h1, h2⟩

theorem Fine.half {x : ℝ} (h : Fine x) : ∃ c, ofReal (-x / 2) = .ok c := by
  apply ofReal_ok
  have e : |-x / 2| = |x| / 2 := by rw [abs_div, abs_neg, abs_two]
  rw [e]
  rcases h with h | ⟨h1, h2⟩
  · left
    have := abs_nonneg x
    linarith
  · right
    constructor
    · norm_num at h1 ⊢; linarith
    · linarith [abs_nonneg x]

theorem fine_zero : Fine 0 := .inl (by rw [abs_zero]; unfold tol; positivity)

theorem modPi_cases (a : PiRational) : a.modPi.frac = a.frac ∨ a.modPi.frac = a.frac - 2 ∨ a.modPi.frac = a.frac + 2 := by
  have hd := den_pos a.frac
  have hn := num_eq a.frac
  unfold modPi
  split_ifs
  · right; left
    simp only
    push_cast
    rw [hn]
    field_simp
  · right; right
    simp only
    push_cast
    rw [hn]
    field_simp
  · exact .inl rfl

/-- Phases that can be halved. -/
def Coarse (c : PiRational) : Prop := c.frac = 0 ∨ 1 / 10 ^ 9 ≤ |c.frac|

theorem coarse_int (j : ℤ) : (j : ℚ) / 10 ^ 9 = 0 ∨ 1 / 10 ^ 9 ≤ |(j : ℚ) / 10 ^ 9| := by
  by_cases hj : j = 0
  · left; rw [hj]; simp
  · right
    rw [abs_div, abs_of_pos (by norm_num : (0 : ℚ) < 10 ^ 9)]
    apply div_le_div_of_nonneg_right _ (by norm_num)
    have := Int.one_le_abs hj
    exact_mod_cast this

theorem Fine.coarse {x : ℝ} (h : Fine x) {c : PiRational} (e : ofReal x = .ok c) : c.Coarse := by
  have hp1 := Real.pi_gt_three
  have hp2 := Real.pi_lt_d2
  unfold ofReal at e
  by_cases h1 : |x| < tol
  · rw [if_pos h1] at e
    injection e with e
    subst e
    exact .inl rfl
  rw [if_neg h1] at e
  rcases h with h | ⟨h2, h3⟩
  · exact absurd h h1
  simp only at e
  have hx : 0 < |x| := lt_of_lt_of_le (by norm_num) h2
  have hm : |Real.pi / x| ≤ 32 / 10 * 10 ^ 8 := by
    rw [abs_div, abs_of_pos Real.pi_pos, div_le_iff₀ hx]
    nlinarith
  by_cases h4 : |(roundAway (Real.pi / x) : ℝ) - Real.pi / x| < tol
  · rw [if_pos h4] at e
    have hr : |(roundAway (Real.pi / x) : ℝ)| < 33 / 10 * 10 ^ 8 := by
      have := abs_sub_abs_le_abs_sub (roundAway (Real.pi / x) : ℝ) (Real.pi / x)
      have ht : tol < 1 := by unfold tol; norm_num
      linarith
    rw [toInt32_ok (hr.trans (by norm_num))] at e
    simp only at e
    unfold ofFrac at e
    split_ifs at e with h0
    injection e with e
    generalize roundAway (Real.pi / x) = d at *
    have hd : (0 : ℚ) < |(d : ℚ)| := by
      rw [abs_pos]; exact_mod_cast h0
    have hd1 : |(d : ℝ)| ≤ 330000000 := by norm_num at hr; exact hr.le
    have hd2 : |d| ≤ 330000000 := by exact_mod_cast hd1
    have hd' : |(d : ℚ)| ≤ 330000000 := by exact_mod_cast hd2
    have hq : 1 / 10 ^ 9 ≤ |1 / (d : ℚ)| := by
      rw [abs_div, abs_one, le_div_iff₀ hd]
      norm_num at hd' ⊢
      linarith
    have hq1 : |1 / (d : ℚ)| ≤ 1 := by
      rw [abs_div, abs_one, div_le_iff₀ hd, one_mul]
      have := Int.one_le_abs h0
      exact_mod_cast this
    rw [abs_le] at hq1
    right
    rw [← e]
    rcases modPi_cases ⟨((1 : ℤ) : ℚ) / d⟩ with h5 | h5 | h5 <;> rw [h5] <;> simp only [Int.cast_one]
    · exact hq
    · rw [abs_of_nonpos (by linarith)]; norm_num at hq1 ⊢; linarith
    · rw [abs_of_nonneg (by linarith)]; norm_num at hq1 ⊢; linarith
  · rw [if_neg h4] at e
    cases ht : toInt32 (trunc (x / Real.pi / 2)) with
    | ub => rw [ht] at e; cases e
    | throw => rw [ht] at e; cases e
    | ok k =>
      rw [ht] at e
      simp only at e
      injection e with e
      unfold Coarse
      rw [← e]
      generalize trunc _ = j
      unfold maxDenom
      rcases modPi_cases ⟨(j : ℚ) / ((10 ^ 9 : ℤ) : ℚ)⟩ with h5 | h5 | h5 <;> rw [h5] <;> simp only <;> push_cast
      · exact coarse_int j
      · have := coarse_int (j - 2 * 10 ^ 9)
        push_cast at this
        rw [show ((j : ℚ) - 2000000000) / 10 ^ 9 = (j : ℚ) / 1000000000 - 2 by ring] at this
        exact this
      · have := coarse_int (j + 2 * 10 ^ 9)
        push_cast at this
        rw [show ((j : ℚ) + 2000000000) / 10 ^ 9 = (j : ℚ) / 1000000000 + 2 by ring] at this
        exact this

end PiRational

theorem Phase.half_ok {φ : Phase} (h : φ.const.Coarse) (hr : φ.const.InRange) : ∃ h, φ.half = .ok h := by
  have hp1 := Real.pi_gt_d2
  have hp2 := Real.pi_lt_d2
  have : ∃ c, PiRational.ofReal (φ.const.frac * Real.pi / 2) = .ok c := by
    apply PiRational.ofReal_ok
    rcases h with h | h
    · left
      rw [h]
      simp only [Rat.cast_zero, zero_mul, zero_div, abs_zero]
      unfold PiRational.tol
      positivity
    · right
      have h1 : (1 / 10 ^ 9 : ℝ) ≤ |(φ.const.frac : ℝ)| := by
        have := (Rat.cast_le (K := ℝ)).2 h
        push_cast at this
        norm_num at this ⊢
        exact this
      have h2 : |(φ.const.frac : ℝ)| ≤ 1 := by
        have : |φ.const.frac| ≤ 1 := abs_le.2 ⟨hr.1.le, hr.2⟩
        exact_mod_cast this
      rw [abs_div, abs_mul, abs_of_pos Real.pi_pos, abs_two]
      constructor
      · norm_num at h1 ⊢; nlinarith
      · nlinarith [abs_nonneg (φ.const.frac : ℝ)]
  obtain ⟨c, hc⟩ := this
  exact ⟨_, by unfold Phase.half Param.conv; rw [hc]; rfl⟩

/-- Parameters whose number or constant can be converted. -/
def Param.Fine : Param → Prop
  | .num x => PiRational.Fine x
  | .symb _ c => PiRational.Fine c

theorem Param.Fine.parse {x : Param} (h : x.Fine) : ∃ φ, x.parse = .ok φ ∧ φ.const.Coarse ∧ φ.const.InRange := by
  have key : ∀ t y, PiRational.Fine y → ∃ φ, Param.conv t y = .ok φ ∧ φ.const.Coarse ∧ φ.const.InRange := by
    intro t y hy
    obtain ⟨c, hc⟩ := hy.ok
    exact ⟨⟨t, c⟩, by unfold Param.conv; rw [hc]; rfl, hy.coarse hc, (PiRational.ofReal_spec hc).1⟩
  cases x with
  | num x => exact key 0 x h
  | symb t c => exact key t c h

theorem Param.Fine.stored {x : Param} (h : x.Fine) : PiRational.Fine x.stored := by
  cases x with
  | num x => exact h
  | symb t c => exact PiRational.fine_zero

namespace Build

/-! ### Steps -/

/-- What the steps need in order not to fail. -/
structure Live (n : ℕ) (b : Build) : Prop where
  del : b.D.deleted = []
  nv : b.D.nvertices = b.D.size
  vert : ∀ v < b.D.size, b.D.vert v ≠ none
  len : b.qs.length = n
  qs : ∀ v ∈ b.qs, v < b.D.size
  outs : b.D.outputs = (List.range n).map (n + ·)
  big : n + n ≤ b.D.size

/-- A step that returns. -/
def Tot (n : ℕ) (f : Action) : Prop := ∀ b, Live n b → ∃ b', f b = .ok b' ∧ Live n b'

variable {n : ℕ}

theorem tot_seq {l : List Action} (h : ∀ f ∈ l, Tot n f) : Tot n (seq l) := by
  induction l with
  | nil => exact fun b hb => ⟨b, rfl, hb⟩
  | cons f r ih =>
    intro b hb
    obtain ⟨b1, e1, h1⟩ := h f List.mem_cons_self b hb
    obtain ⟨b2, e2, h2⟩ := ih (fun g hg => h g (List.mem_cons_of_mem _ hg)) b1 h1
    refine ⟨b2, ?_, h2⟩
    unfold seq
    rw [e1]
    exact e2

theorem tot_nil : Tot n (seq []) := fun b hb => ⟨b, rfl, hb⟩

theorem tot_cons {f : Action} {l : List Action} (hf : Tot n f) (hl : Tot n (seq l)) : Tot n (seq (f :: l)) := by
  intro b hb
  obtain ⟨b1, e1, h1⟩ := hf b hb
  obtain ⟨b2, e2, h2⟩ := hl b1 h1
  refine ⟨b2, ?_, h2⟩
  unfold seq
  rw [e1]
  exact e2

theorem tot_skip : Tot n fun b => .ok b := fun b hb => ⟨b, rfl, hb⟩

theorem Live.get {b : Build} (hb : Live n b) {q : ℕ} (hq : q < n) : ∃ v, lift b.qs[q]? = .ok v ∧ v < b.D.size := by
  have h : q < b.qs.length := by rw [hb.len]; exact hq
  refine ⟨b.qs[q], ?_, hb.qs _ (List.getElem_mem h)⟩
  rw [List.getElem?_eq_getElem h]
  rfl

theorem live_addVertex {D : Diagram} {qs : List ℕ} (h : Live n ⟨D, qs⟩) (d : VData) :
    Live n ⟨(D.addVertex d).1, qs⟩ ∧ (D.addVertex d).2 = D.size ∧ (D.addVertex d).1.size = D.size + 1 := by
  obtain ⟨h1, h2, h3, h4, h5, h6, h7⟩ := h
  simp only at h1 h2 h3 h4 h5 h6 h7
  unfold addVertex
  rw [h1]
  simp only [List.getLast?_nil]
  refine ⟨⟨rfl, ?_, ?_, h4, ?_, h6, Nat.le_succ_of_le h7⟩, ?_, trivial⟩
  · simp only; rw [h2]; push_cast; ring
  · intro v hv
    simp only at hv ⊢
    by_cases hvs : v = D.size
    · subst hvs; rw [Function.update_self]; simp
    · rw [Function.update_of_ne hvs]; exact h3 v (by omega)
  · intro v hv
    have := h5 v hv
    simp only
    omega
  · rw [h2]; omega

theorem live_addEdge {D : Diagram} {qs : List ℕ} (h : Live n ⟨D, qs⟩) {u v : ℕ} (hu : u < D.size) (hv : v < D.size) (t : EType) :
    ∃ D1, D.addEdge u v t = some D1 ∧ Live n ⟨D1, qs⟩ ∧ D1.size = D.size := by
  unfold addEdge
  rw [if_pos ⟨hu, hv⟩]
  exact ⟨_, rfl, ⟨h.del, h.nv, h.vert, h.len, h.qs, h.outs, h.big⟩, rfl⟩

theorem live_set {D : Diagram} {qs : List ℕ} (h : Live n ⟨D, qs⟩) (q : ℕ) {w : ℕ} (hw : w < D.size) : Live n ⟨D, qs.set q w⟩ := by
  refine ⟨h.del, h.nv, h.vert, by simpa using h.len, fun v hv => ?_, h.outs, h.big⟩
  rcases List.mem_or_eq_of_mem_set hv with h1 | h1
  · exact h.qs v h1
  · rw [h1]; exact hw

theorem tot_spider (c : VType) {q : ℕ} (hq : q < n) (φ : Phase) (t : EType) : Tot n (spider c q φ t) := by
  rintro ⟨D, qs⟩ hb
  obtain ⟨v, e, hv⟩ := hb.get hq
  unfold spider
  rw [e]
  show ∃ b', (if v < D.size then _ else _) = _ ∧ _
  rw [if_pos hv]
  cases hd : D.vert v with
  | none => exact absurd hd (hb.vert v hv)
  | some d =>
    simp only
    obtain ⟨h1, h2, h3⟩ := live_addVertex hb ⟨q, φ, c⟩
    obtain ⟨D2, e2, h4, h5⟩ := live_addEdge h1 (u := v) (v := (D.addVertex ⟨q, φ, c⟩).2) (by rw [h3]; exact Nat.lt_succ_of_lt hv)
      (by rw [h2, h3]; omega) t
    rw [e2]
    exact ⟨_, rfl, live_set h4 q (by rw [h5, h2, h3]; omega)⟩

theorem tot_z {q : ℕ} (hq : q < n) (φ : Phase) (t : EType) : Tot n (zSpider q φ t) := tot_spider _ hq _ _
theorem tot_x {q : ℕ} (hq : q < n) (φ : Phase) (t : EType) : Tot n (xSpider q φ t) := tot_spider _ hq _ _

theorem tot_link {q0 q1 : ℕ} (h0 : q0 < n) (h1 : q1 < n) (t : EType) : Tot n (link q0 q1 t) := by
  rintro ⟨D, qs⟩ hb
  obtain ⟨v, e, hv⟩ := hb.get h0
  obtain ⟨w, e', hw⟩ := hb.get h1
  obtain ⟨D2, e2, h4, h5⟩ := live_addEdge hb hv hw t
  unfold link
  rw [e]
  show ∃ b', (lift qs[q1]?).bind _ = _ ∧ _
  rw [e']
  show ∃ b', (lift (D.addEdge _ _ _)).bind _ = _ ∧ _
  rw [e2]
  exact ⟨_, rfl, h4⟩

theorem tot_gphase (φ : Phase) : Tot n (gphase φ) := fun _ hb => ⟨_, rfl, hb.del, hb.nv, hb.vert, hb.len, hb.qs, hb.outs, hb.big⟩

theorem tot_rot {φ : Phase} {un : Option ℝ} (h : ∃ p, rotPhase φ un = .ok p) : Tot n (rot φ un) := by
  obtain ⟨p, e⟩ := h
  intro b hb
  unfold rot
  rw [e]
  exact tot_gphase p b hb

theorem tot_gadget (m l : VType) (t : EType) (φ : Phase) {q0 q1 : ℕ} (h0 : q0 < n) (h1 : q1 < n) : Tot n (gadget m l t φ q0 q1) := by
  rintro ⟨D, qs⟩ hb
  obtain ⟨v, e, hv⟩ := hb.get h0
  obtain ⟨w, e', hw⟩ := hb.get h1
  obtain ⟨a1, a2, a3⟩ := live_addVertex hb ⟨-1, .ofRat 0, m⟩
  obtain ⟨b1, b2, b3⟩ := live_addVertex a1 ⟨-1, φ, l⟩
  unfold gadget
  simp only at *
  rw [e]
  show ∃ b', (lift qs[q1]?).bind _ = _ ∧ _
  rw [e']
  obtain ⟨D3, e3, c1, c2⟩ := live_addEdge b1 (u := v) (v := (D.addVertex ⟨-1, .ofRat 0, m⟩).2) (by omega) (by omega) .simple
  show ∃ b', (lift (Diagram.addEdge _ _ _ _)).bind _ = _ ∧ _
  rw [e3]
  obtain ⟨D4, e4, d1, d2⟩ := live_addEdge c1 (u := w) (v := (D.addVertex ⟨-1, .ofRat 0, m⟩).2) (by omega) (by omega) t
  show ∃ b', (lift (Diagram.addEdge _ _ _ _)).bind _ = _ ∧ _
  rw [e4]
  obtain ⟨D5, e5, f1, f2⟩ := live_addEdge d1 (u := (D.addVertex ⟨-1, .ofRat 0, m⟩).2)
    (v := ((D.addVertex ⟨-1, .ofRat 0, m⟩).1.addVertex ⟨-1, φ, l⟩).2) (by omega) (by omega) .simple
  show ∃ b', (lift (Diagram.addEdge _ _ _ _)).bind _ = _ ∧ _
  rw [e5]
  exact ⟨_, rfl, f1⟩

theorem tot_swap {q0 q1 : ℕ} (h0 : q0 < n) (h1 : q1 < n) : Tot n (swap q0 q1) := by
  rintro ⟨D, qs⟩ hb
  obtain ⟨s1, e, hv⟩ := hb.get h0
  obtain ⟨s0, e', hw⟩ := hb.get h1
  obtain ⟨a1, a2, a3⟩ := live_addVertex hb ⟨q1, Phase.zero, .z⟩
  obtain ⟨b1, b2, b3⟩ := live_addVertex a1 ⟨q0, Phase.zero, .z⟩
  unfold swap
  simp only at *
  rw [e', e]
  show ∃ b', (if s0 < D.size then _ else _) = _ ∧ _
  rw [if_pos hw]
  cases hd : D.vert s0 with
  | none => exact absurd hd (hb.vert s0 hw)
  | some d =>
    simp only
    obtain ⟨D3, e3, c1, c2⟩ := live_addEdge b1 (u := s0)
      (v := ((D.addVertex ⟨q1, Phase.zero, .z⟩).1.addVertex ⟨q0, Phase.zero, .z⟩).2) (by omega) (by omega) .simple
    rw [e3]
    obtain ⟨D4, e4, d1, d2⟩ := live_addEdge c1 (u := s1) (v := (D.addVertex ⟨q1, Phase.zero, .z⟩).2) (by omega) (by omega) .simple
    show ∃ b', (lift (Diagram.addEdge _ _ _ _)).bind _ = _ ∧ _
    rw [e4]
    exact ⟨_, rfl, live_set (live_set d1 q1 (by omega)) q0 (by omega)⟩

/-! ### Gates -/

theorem tot_cnot {c t : ℕ} (hc : c < n) (ht : t < n) : Tot n (cnot c t) :=
  tot_cons (tot_z hc _ _) (tot_cons (tot_x ht _ _) (tot_cons (tot_link hc ht _) tot_nil))

theorem rotPhase_none {φ : Phase} (h : φ.const.Coarse) (hr : φ.const.InRange) : ∃ p, rotPhase φ none = .ok p := by
  obtain ⟨p, e⟩ := Phase.half_ok h hr
  exact ⟨p.neg, by unfold rotPhase; rw [e]; rfl⟩

theorem rotPhase_some {φ : Phase} {x : ℝ} (h : PiRational.Fine x) : ∃ p, rotPhase φ (some x) = .ok p := by
  obtain ⟨c, e⟩ := h.half
  exact ⟨⟨0, c⟩, by show (PiRational.ofReal (-x / 2)).bind _ = _; rw [e]; rfl⟩

theorem tot_cphase {φ : Phase} (h : φ.const.Coarse) (hr : φ.const.InRange) {c t : ℕ} (hc : c < n) (ht : t < n) :
    Tot n (cphase φ c t) := by
  obtain ⟨p, e⟩ := Phase.half_ok h hr
  intro b hb
  unfold cphase
  rw [e]
  have e2 : φ.const.divInt 2 = .ok (PiRational.modPi ⟨φ.const.frac / (2 : ℤ)⟩) := if_neg (by norm_num)
  show ∃ b', (PiRational.divInt φ.const 2).bind (fun k => seq [zSpider c ⟨p.sym, k⟩, cnot c t, zSpider t (Phase.neg ⟨p.sym, k⟩), cnot c t,
    zSpider t ⟨p.sym, k⟩] b) = _ ∧ _
  rw [e2]
  exact tot_cons (tot_z hc _ _) (tot_cons (tot_cnot hc ht) (tot_cons (tot_z ht _ _) (tot_cons (tot_cnot hc ht)
    (tot_cons (tot_z ht _ _) tot_nil)))) b hb

theorem tot_ccx {c d t : ℕ} (hc : c < n) (hd : d < n) (ht : t < n) : Tot n (ccx c d t) :=
  tot_cons (tot_z ht _ _) (tot_cons (tot_cnot hd ht) (tot_cons (tot_z ht _ _) (tot_cons (tot_cnot hc ht) (tot_cons (tot_z ht _ _)
    (tot_cons (tot_cnot hd ht) (tot_cons (tot_z hd _ _) (tot_cons (tot_z ht _ _) (tot_cons (tot_cnot hc ht) (tot_cons (tot_z ht _ _)
    (tot_cons (tot_cnot hc hd) (tot_cons (tot_z hc _ _) (tot_cons (tot_z hd _ _) (tot_cons (tot_z ht _ _)
    (tot_cons (tot_cnot hc hd) tot_nil))))))))))))))

theorem tot_param {ps : List Param} (hf : ∀ x ∈ ps, x.Fine) {i : ℕ} (hi : i < ps.length) {f : Phase → Action}
    (h : ∀ φ : Phase, φ.const.Coarse → φ.const.InRange → Tot n (f φ)) : Tot n (withPhase ps i f) := by
  obtain ⟨φ, e, h1, h2⟩ := (hf _ (List.getElem_mem hi)).parse
  intro b hb
  unfold withPhase param
  rw [List.getElem?_eq_getElem hi]
  show ∃ b', (Res.bind (Param.parse _) _) = _ ∧ _
  rw [e]
  exact h φ h1 h2 b hb

theorem tot_rotation {ps : List Param} (hf : ∀ x ∈ ps, x.Fine) (hi : 0 < ps.length) {f : Phase → Option ℝ → Action}
    (h : ∀ (φ : Phase) un, (∃ p, rotPhase φ un = .ok p) → Tot n (f φ un)) : Tot n (withParam ps f) := by
  unfold withParam
  refine tot_param hf hi fun φ h1 h2 b hb => ?_
  split_ifs
  · rw [List.getElem?_eq_getElem hi]
    exact h φ _ (rotPhase_some (hf _ (List.getElem_mem hi)).stored) b hb
  · exact h φ _ (rotPhase_none h1 h2) b hb

theorem coarse_rat {q : ℚ} (h : -1 < q ∧ q ≤ 1) (h' : 1 / 10 ^ 9 ≤ |q|) : (Phase.ofRat q).const.Coarse ∧ (Phase.ofRat q).const.InRange := by
  have : (Phase.ofRat q).const = ⟨q⟩ := Phase.modPi_of_inRange (a := ⟨q⟩) h
  rw [this]
  exact ⟨.inr h', h⟩

theorem coarse_quarter : (Phase.ofRat (1 / 4)).const.Coarse ∧ (Phase.ofRat (1 / 4)).const.InRange :=
  coarse_rat (by norm_num) (by norm_num [abs_of_pos])
theorem coarse_neg {q : ℚ} (h : -1 < q ∧ q < 1) (h' : 1 / 10 ^ 9 ≤ |q|) :
    (Phase.ofRat q).neg.const.Coarse ∧ (Phase.ofRat q).neg.const.InRange := by
  have h1 : (Phase.ofRat q).const = ⟨q⟩ := Phase.modPi_of_inRange (a := ⟨q⟩) ⟨h.1, h.2.le⟩
  have h2 : (Phase.ofRat q).neg.const = ⟨-q⟩ := by
    show PiRational.neg (Phase.ofRat q).const = _
    rw [h1]
    unfold PiRational.neg
    have : ((-q.num : ℤ) : ℚ) / (q.den : ℤ) = -q := by
      push_cast
      rw [neg_div, Rat.num_div_den]
    rw [this]
    exact Phase.modPi_of_inRange (a := ⟨-q⟩) ⟨by simp only; linarith [h.2], by simp only; linarith [h.1]⟩
  rw [h2]
  exact ⟨.inr (by simpa using h'), by simp only; linarith [h.2], by simp only; linarith [h.1]⟩

theorem coarse_neg_quarter : (Phase.ofRat (1 / 4)).neg.const.Coarse ∧ (Phase.ofRat (1 / 4)).neg.const.InRange :=
  coarse_neg (by norm_num) (by norm_num)
theorem coarse_half : (Phase.ofRat (1 / 2)).const.Coarse ∧ (Phase.ofRat (1 / 2)).const.InRange :=
  coarse_rat (by norm_num) (by norm_num [abs_of_pos])
theorem coarse_nquarter : (Phase.ofRat (-1 / 4)).const.Coarse ∧ (Phase.ofRat (-1 / 4)).const.InRange :=
  coarse_rat (by norm_num) (by rw [abs_of_neg] <;> norm_num)
theorem coarse_nhalf : (Phase.ofRat (-1 / 2)).const.Coarse ∧ (Phase.ofRat (-1 / 2)).const.InRange :=
  coarse_rat (by norm_num) (by rw [abs_of_neg] <;> norm_num)

/-- How many parameters are looked at. -/
def needs : OpType → ℕ
  | .rz | .p | .rx | .ry | .rzz | .rxx | .rzx | .ryy => 1
  | .u2 => 2
  | .u => 3
  | _ => 0

/-- Gates that the code deals with: enough targets, all qubits on wires, parameters that can be converted. -/
structure Able (n : ℕ) (p : PMap) (o : StdOp Param) : Prop where
  targets : 0 < o.targets.length
  two : o.type.isTwoQubitGate = true → 1 < o.targets.length
  tgt : ∀ q ∈ o.targets, ∃ w < n, p q = some w
  ctl : ∀ c ∈ o.controls, ∃ w < n, p c.1 = some w
  params : needs o.type ≤ o.params.length
  fine : ∀ x ∈ o.params, x.Fine
  ty : o.type ≠ .gphase ∧ o.type ≠ .xxplusyy ∧ o.type ≠ .xxminusyy

theorem tot_plain {ty : OpType} {ps : List Param} {q : ℕ} {q1 : Res ℕ} (hq : q < n)
    (h1 : ty.isTwoQubitGate = true → ∃ w, q1 = .ok w ∧ w < n) (hn : needs ty ≤ ps.length) (hf : ∀ x ∈ ps, x.Fine)
    (hbar : ty ≠ .barrier) (hty : ty ≠ .gphase ∧ ty ≠ .xxplusyy ∧ ty ≠ .xxminusyy) {nt : ℕ} (ht : transformable1 ty 0 nt = true) :
    Tot n (plain ty ps q q1) := by
  have two : ∀ {f : ℕ → Action}, ty.isTwoQubitGate = true → (∀ w < n, Tot n (f w)) → Tot n fun b => q1.bind fun q1 => f q1 b := by
    intro f h2 h
    obtain ⟨w, rfl, hw⟩ := h1 h2
    exact h w hw
  cases ty <;> first | (simp [transformable1] at ht; done) | skip
  all_goals first | exact absurd rfl hbar | exact absurd rfl hty.1 | exact absurd rfl hty.2.1 | exact absurd rfl hty.2.2 | skip
  case i => exact tot_skip
  case measure => exact tot_skip
  case h => exact tot_z hq _ _
  case x => exact tot_x hq _ _
  case y => exact tot_cons (tot_gphase _) (tot_cons (tot_z hq _ _) (tot_cons (tot_x hq _ _) tot_nil))
  case z => exact tot_z hq _ _
  case s => exact tot_z hq _ _
  case sdg => exact tot_z hq _ _
  case t => exact tot_z hq _ _
  case tdg => exact tot_z hq _ _
  case sx => exact tot_x hq _ _
  case sxdg => exact tot_x hq _ _
  case p => exact tot_param hf hn fun φ _ _ => tot_z hq φ _
  case rx => exact tot_param hf hn fun φ _ _ => tot_x hq φ _
  case rz => exact tot_rotation hf hn fun φ un h => tot_cons (tot_rot h) (tot_cons (tot_z hq _ _) tot_nil)
  case ry =>
    exact tot_rotation hf hn fun φ un h => tot_cons (tot_rot h) (tot_cons (tot_x hq _ _) (tot_cons (tot_z hq _ _)
      (tot_cons (tot_x hq _ _) (tot_cons (tot_z hq _ _) tot_nil))))
  case u2 =>
    exact tot_cons (tot_param hf hn fun φ _ _ => tot_z hq _ _) (tot_cons (tot_x hq _ _)
      (tot_cons (tot_param hf (Nat.lt_of_lt_of_le (by decide) hn) fun φ _ _ => tot_z hq _ _) tot_nil))
  case u =>
    exact tot_cons (tot_param hf hn fun φ _ _ => tot_z hq _ _) (tot_cons (tot_x hq _ _)
      (tot_cons (tot_param hf (Nat.lt_of_lt_of_le (by decide) hn) fun φ _ _ => tot_z hq _ _) (tot_cons (tot_x hq _ _)
      (tot_cons (tot_param hf (Nat.lt_of_lt_of_le (by decide) hn) fun φ _ _ => tot_z hq _ _) tot_nil))))
  case swap => exact two rfl fun w hw => tot_swap hq hw
  case iswap =>
    exact two (f := fun q1 => seq [zSpider q (.ofRat (1 / 2)), zSpider q1 (.ofRat (1 / 2)), zSpider q .zero .hadamard,
        cnot q q1, cnot q1 q, zSpider q1 .zero .hadamard]) rfl fun w hw => tot_cons (tot_z hq _ _) (tot_cons (tot_z hw _ _) (tot_cons (tot_z hq _ _)
      (tot_cons (tot_cnot hq hw) (tot_cons (tot_cnot hw hq) (tot_cons (tot_z hw _ _) tot_nil)))))
  case dcx => exact two (f := fun q1 => dcx q q1) rfl fun w hw => tot_cons (tot_cnot hq hw) (tot_cons (tot_cnot hw hq) tot_nil)
  case rzz =>
    exact two (f := fun q1 => withParam ps fun φ un => rzz φ q q1 un) rfl fun w hw => tot_rotation hf hn fun φ un h =>
      tot_cons (tot_z hq _ _) (tot_cons (tot_z hw _ _) (tot_cons (tot_gadget _ _ _ _ hq hw) (tot_cons (tot_rot h) tot_nil)))
  case rxx =>
    exact two (f := fun q1 => withParam ps fun φ un => rxx φ q q1 un) rfl fun w hw => tot_rotation hf hn fun φ un h =>
      tot_cons (tot_x hq _ _) (tot_cons (tot_x hw _ _) (tot_cons (tot_gadget _ _ _ _ hq hw) (tot_cons (tot_rot h) tot_nil)))
  case rzx =>
    exact two (f := fun q1 => withParam ps fun φ un => rzx φ q q1 un) rfl fun w hw => tot_rotation hf hn fun φ un h =>
      tot_cons (tot_z hq _ _) (tot_cons (tot_x hw _ _) (tot_cons (tot_gadget _ _ _ _ hq hw) (tot_cons (tot_rot h) tot_nil)))
  case ryy =>
    exact two (f := fun q1 => withParam ps fun φ un => seq [xSpider q (.ofRat (1 / 2)), xSpider q1 (.ofRat (1 / 2)),
        rzz φ q q1 un, xSpider q1 (Phase.ofRat (1 / 2)).neg, xSpider q (Phase.ofRat (1 / 2)).neg]) rfl fun w hw => tot_rotation hf hn fun φ un h =>
      tot_cons (tot_x hq _ _) (tot_cons (tot_x hw _ _) (tot_cons (tot_cons (tot_z hq _ _) (tot_cons (tot_z hw _ _)
        (tot_cons (tot_gadget _ _ _ _ hq hw) (tot_cons (tot_rot h) tot_nil)))) (tot_cons (tot_x hw _ _) (tot_cons (tot_x hq _ _) tot_nil))))
  case ecr =>
    have hz : ∀ {φ : Phase} {w : ℕ}, w < n → φ.const.Coarse → φ.const.InRange → Tot n (rzx φ q w) := fun hw h1 h2 =>
      tot_cons (tot_z hq _ _) (tot_cons (tot_x hw _ _) (tot_cons (tot_gadget _ _ _ _ hq hw) (tot_cons (tot_rot (rotPhase_none h1 h2)) tot_nil)))
    have hneg := coarse_neg_quarter
    exact two (f := fun q1 => seq [rzx (.ofRat (1 / 4)) q q1, xSpider q, rzx (Phase.ofRat (1 / 4)).neg q q1]) rfl fun w hw =>
      tot_cons (hz hw coarse_quarter.1 coarse_quarter.2) (tot_cons (tot_x hq _ _) (tot_cons (hz hw hneg.1 hneg.2) tot_nil))

theorem tot_parseStd {p : PMap} {o : StdOp Param} (h : o.type = .barrier ∨ Able n p o)
    (ht : transformable1 o.type o.controls.card o.targets.length = true) : Tot n (parseStd p o) := by
  intro b hb
  unfold parseStd
  by_cases hbar : o.type = .barrier
  · rw [if_pos hbar]; exact ⟨b, rfl, hb⟩
  rw [if_neg hbar]
  rcases h with h | h
  · exact absurd h hbar
  have hlen : (ctrlList o).length = o.controls.card := by
    unfold ctrlList; rw [Multiset.length_sort, Multiset.card_map]; rfl
  have hmem : ∀ c ∈ ctrlList o, ∃ w < n, p c = some w := by
    intro c hc
    unfold ctrlList at hc
    rw [Multiset.mem_sort, Multiset.mem_map] at hc
    obtain ⟨d, hd, rfl⟩ := hc
    exact h.ctl d hd
  rw [← hlen] at ht
  have hfr : ∃ q < n, front p o.targets = .ok q := by
    have h1 := h.targets
    have h2 := h.tgt
    revert h1 h2
    cases o.targets with
    | nil => intro h1; cases h1
    | cons q r =>
      intro _ h2
      obtain ⟨w, hw, e⟩ := h2 q List.mem_cons_self
      exact ⟨w, hw, by show at' (p q) = _; rw [e]; rfl⟩
  obtain ⟨q, hq, ef⟩ := hfr
  generalize ctrlList o = cl at *
  match cl, ht, hmem with
  | [], ht, hmem =>
    simp only
    rw [ef]
    refine tot_plain hq ?_ h.params h.fine hbar h.ty ht b hb
    intro h2
    have h3 := h.two h2
    obtain ⟨w, hw, e⟩ := h.tgt _ (List.getElem_mem h3)
    refine ⟨w, ?_, hw⟩
    unfold second
    rw [List.getElem?_eq_getElem h3]
    show at' (p _) = _
    rw [e]; rfl
  | [c], ht, hmem =>
    simp only
    have hl : o.targets.length = 1 := by
      by_contra hl
      simp [transformable1, hbar, hl] at ht
    rw [if_pos hl, ef]
    obtain ⟨w, hw, e⟩ := hmem c List.mem_cons_self
    show ∃ b', (at' (p c)).bind _ = _ ∧ _
    rw [e]
    show ∃ b', single o.type o.params w q b = _ ∧ _
    have hp := h.params
    have hf := h.fine
    generalize o.type = ty at *
    generalize o.params = ps at *
    cases ty <;> first | exact absurd rfl hbar | (simp [transformable1, hl] at ht; done) | skip
    case x => exact tot_cnot hw hq b hb
    case z => exact tot_cons (tot_z hw _ _) (tot_cons (tot_z hq _ _) (tot_cons (tot_link hw hq _) tot_nil)) b hb
    case i => exact ⟨b, rfl, hb⟩
    case p => exact tot_param hf hp (fun φ h1 h2 => tot_cphase h1 h2 hw hq) b hb
    case t => exact tot_cphase coarse_quarter.1 coarse_quarter.2 hw hq b hb
    case s => exact tot_cphase coarse_half.1 coarse_half.2 hw hq b hb
    case tdg => exact tot_cphase coarse_nquarter.1 coarse_nquarter.2 hw hq b hb
    case sdg => exact tot_cphase coarse_nhalf.1 coarse_nhalf.2 hw hq b hb
  | [c, d], ht, hmem =>
    simp only
    rw [ef]
    obtain ⟨w, hw, e⟩ := hmem c List.mem_cons_self
    obtain ⟨w', hw', e'⟩ := hmem d (by simp)
    show ∃ b', (at' (p c)).bind _ = _ ∧ _
    rw [e]
    show ∃ b', (at' (p d)).bind _ = _ ∧ _
    rw [e']
    show ∃ b', double o.type w w' q b = _ ∧ _
    generalize o.type = ty at *
    cases ty <;> first | exact absurd rfl hbar | (simp [transformable1] at ht; done) | skip
    case x => exact tot_ccx hw hw' hq b hb
    case z => exact tot_cons (tot_z hq _ _) (tot_cons (tot_ccx hw hw' hq) (tot_cons (tot_z hq _ _) tot_nil)) b hb
  | c :: d :: e :: r, ht, hmem =>
    exfalso
    simp [transformable1, hbar] at ht

/-! ### Circuits -/

/-- All operations can be dealt with; of measurements, only the first qubit is looked at. -/
def AbleL (n : ℕ) (p : PMap) : List (Op Param) → Prop
  | [] => True
  | .std o :: r => (o.type = .barrier ∨ Able n p o) ∧ AbleL n p r
  | .compound ops _ :: r => AbleL n p ops ∧ AbleL n p r
  | .measure qs _ :: r => (∃ q, front p qs = .ok q) ∧ AbleL n p r
  | _ :: r => AbleL n p r
termination_by l => sizeOf l

theorem AbleL.tail {p : PMap} {o : Op Param} {r : List (Op Param)} (h : AbleL n p (o :: r)) : AbleL n p r := by
  cases o <;> simp only [AbleL] at h <;> first | exact h.2 | exact h

theorem AbleL.cx {p : PMap} {o : Op Param} {r : List (Op Param)} (h : AbleL n p (o :: r)) {s : StdOp Param}
    (hs : isCX o = some s) : ∃ t c, t < n ∧ c < n ∧ front p s.targets = .ok t ∧ front p (ctrlList s) = .ok c := by
  have hi := isCX_std hs
  subst hi
  rw [AbleL] at h
  unfold isCX at hs
  simp only at hs
  split_ifs at hs with h1
  rcases h.1 with h2 | h2
  · rw [h1.1] at h2; cases h2
  have ht : ∃ t < n, front p s.targets = .ok t := by
    have h3 := h2.targets
    have h4 := h2.tgt
    revert h3 h4
    cases s.targets with
    | nil => intro h1; cases h1
    | cons q r =>
      intro _ h2
      obtain ⟨w, hw, e⟩ := h2 q List.mem_cons_self
      exact ⟨w, hw, by show at' (p q) = _; rw [e]; rfl⟩
  have hc : ∃ t < n, front p (ctrlList s) = .ok t := by
    have hlen : (ctrlList s).length = 1 := by
      unfold ctrlList; rw [Multiset.length_sort, Multiset.card_map]; exact h1.2
    obtain ⟨c, hc⟩ := List.length_eq_one_iff.1 hlen
    have hm : c ∈ ctrlList s := by rw [hc]; exact List.mem_cons_self
    unfold ctrlList at hm
    rw [Multiset.mem_sort, Multiset.mem_map] at hm
    obtain ⟨d, hd, rfl⟩ := hm
    obtain ⟨w, hw, e⟩ := h2.ctl d hd
    rw [hc]
    exact ⟨w, hw, by show at' (p d.1) = _; rw [e]; rfl⟩
  obtain ⟨t, h5, h6⟩ := ht
  obtain ⟨c, h7, h8⟩ := hc
  exact ⟨t, c, h5, h7, h6, h8⟩

theorem swapAt_tot {p : PMap} {o o1 o2 : Op Param} {r : List (Op Param)} (h : AbleL n p (o :: o1 :: o2 :: r)) :
    ∃ w, swapAt p o o1 o2 = .ok w ∧ ∀ c t, w = some (c, t) → c < n ∧ t < n := by
  unfold swapAt
  cases hs : isCX o with
  | none => exact ⟨none, rfl, fun _ _ h => by cases h⟩
  | some s =>
    simp only
    obtain ⟨t, c, ht, hc, e1, e2⟩ := h.cx hs
    by_cases hl : s.targets.length = 1
    · rw [if_pos hl, e1]
      show ∃ w, (front p (ctrlList s)).bind _ = _ ∧ _
      rw [e2]
      show ∃ w, (checkSwap p c t o1 o2).bind _ = _ ∧ _
      have : ∃ r, checkSwap p c t o1 o2 = .ok r := by
        unfold checkSwap
        cases hs1 : isCX o1 with
        | none => exact ⟨false, rfl⟩
        | some s1 =>
          cases hs2 : isCX o2 with
          | none => exact ⟨false, rfl⟩
          | some s2 =>
            simp only
            obtain ⟨t1, c1, -, -, f1, f2⟩ := h.tail.cx hs1
            obtain ⟨t2, c2, -, -, f3, f4⟩ := h.tail.tail.cx hs2
            rw [f1, f2, f3, f4]
            exact ⟨_, rfl⟩
      obtain ⟨r, e3⟩ := this
      rw [e3]
      refine ⟨if r = true then some (c, t) else none, rfl, fun c' t' hw => ?_⟩
      split_ifs at hw
      injection hw with hw
      injection hw with h1 h2
      rw [← h1, ← h2]
      exact ⟨hc, ht⟩
    · rw [if_neg hl]
      exact ⟨none, rfl, fun _ _ h => by cases h⟩

theorem parse1_tot {p : PMap} {o : Op Param} {r : List (Op Param)} (h : AbleL n p (o :: r))
    (hno : ∀ ops k, o = Op.compound ops k → False) (ht : transformable o = true) : Tot n (parse1 p o) := by
  cases o with
  | std o =>
    rw [AbleL] at h
    rw [transformable] at ht
    exact tot_parseStd h.1 ht
  | compound ops k => exact absurd rfl (hno ops k)
  | measure qs cs =>
    rw [AbleL] at h
    obtain ⟨⟨q, e⟩, -⟩ := h
    intro b hb
    refine ⟨b, ?_, hb⟩
    show (front p qs).bind _ = _
    rw [e]
    rfl
  | reset qs => simp [transformable, transformable1, Op.type] at ht
  | classic k o => simp [transformable, transformable1, Op.type] at ht

theorem tot_parseL {p : PMap} (ops : List (Op Param)) (b : Build) : AbleL n p ops → transformableL ops = true → Live n b →
    ∃ b', parseL p ops b = .ok b' ∧ Live n b' := by
  induction ops, b using parseL.induct with
  | case1 b =>
    intro _ _ hb
    rw [parseL]
    exact ⟨b, rfl, hb⟩
  | case2 ops k r b ih1 ih2 =>
    intro h ht hb
    rw [AbleL] at h
    rw [transformableL, transformable, Bool.and_eq_true] at ht
    obtain ⟨b1, e1, h1⟩ := ih1 h.1 ht.1 hb
    obtain ⟨b2, e2, h2⟩ := ih2 b1 h.2 ht.2 h1
    rw [parseL, e1]
    exact ⟨b2, e2, h2⟩
  | case3 o o1 o2 r b hno ih1 ih2 =>
    intro h ht hb
    rw [transformableL, Bool.and_eq_true] at ht
    obtain ⟨w, e, hw⟩ := swapAt_tot h
    rw [parseL, e]
    · cases w with
      | none =>
        obtain ⟨b1, e1, h1⟩ := parse1_tot h hno ht.1 b hb
        obtain ⟨b2, e2, h2⟩ := ih2 b1 h.tail ht.2 h1
        refine ⟨b2, ?_, h2⟩
        show (parse1 p o b).bind _ = _
        rw [e1]
        exact e2
      | some ct =>
        obtain ⟨c, t⟩ := ct
        obtain ⟨hc, htt⟩ := hw c t rfl
        obtain ⟨b1, e1, h1⟩ := tot_swap htt hc b hb
        have ht2 := ht.2
        rw [transformableL, transformableL, Bool.and_eq_true, Bool.and_eq_true] at ht2
        obtain ⟨b2, e2, h2⟩ := ih1 b1 h.tail.tail.tail ht2.2.2 h1
        refine ⟨b2, ?_, h2⟩
        show (swap t c b).bind _ = _
        rw [e1]
        exact e2
    · exact hno
  | case4 o r b hno1 hno2 ih =>
    intro h ht hb
    rw [transformableL, Bool.and_eq_true] at ht
    obtain ⟨b1, e1, h1⟩ := parse1_tot h hno1 ht.1 b hb
    obtain ⟨b2, e2, h2⟩ := ih b1 h.tail ht.2 h1
    rw [parseL, e1]
    · exact ⟨b2, e2, h2⟩
    · exact hno1
    · exact hno2

theorem connect_tot {b : Build} (hb : Live n b) : ∀ k ≤ n, ∃ D, connect b k = .ok D ∧ Live n ⟨D, b.qs⟩ := by
  intro k
  induction k with
  | zero => exact fun _ => ⟨b.D, rfl, hb⟩
  | succ k ih =>
    intro hk
    obtain ⟨D, e, h⟩ := ih (by omega)
    obtain ⟨v, e1, hv⟩ := h.get (q := k) (by omega)
    have hbig : n + n ≤ D.size := h.big
    obtain ⟨D1, e2, h2, -⟩ := live_addEdge h hv (v := n + k) (by omega) .simple
    refine ⟨D1, ?_, h2⟩
    rw [connect, e]
    show (lift b.qs[k]?).bind _ = _
    rw [e1]
    show (lift D.outputs[k]?).bind _ = _
    have ho : D.outputs = _ := h.outs
    have : ((List.range n).map (n + ·))[k]? = some (n + k) := by simp [show k < n by omega]
    rw [ho, this]
    show lift (D.addEdge _ _ _) = _
    rw [e2]
    rfl

theorem live_wires (n : ℕ) : Live n ⟨wires n n n, List.range n⟩ where
  del := rfl
  nv := by show (n : ℤ) + n = ((n + n : ℕ) : ℤ); push_cast; rfl
  vert v hv h := by
    obtain ⟨d, hd⟩ := wires_alive.2 hv
    have h : (wires n n n).vert v = none := h
    rw [hd] at h
    cases h
  len := List.length_range
  qs v hv := by
    have := List.mem_range.1 hv
    show v < n + n
    omega
  outs := rfl
  big := le_rfl

/-- The first loops succeed. -/
theorem build_eq (n : ℕ) (p : PMap) (ops : List (Op Param)) :
    build n p ops = (parseL p ops ⟨wires n n n, List.range n⟩).bind fun b => connect b b.qs.length := by
  have h0 := closeGraph_wires (n := n) n 0 (by omega)
  have h1 : (wires n 0 0).inputs = (List.range n).map (0 + ·) := by
    unfold wires
    simp
  unfold build
  rw [initGraph_eq, h1, h0]
  show (cutWires n n (wires n n 0)).bind _ = _
  rw [cutWires_wires n le_rfl]
  rfl

theorem build_tot {p : PMap} {ops : List (Op Param)} (h : AbleL n p ops) (ht : transformableL ops = true) :
    ∃ D, build n p ops = .ok D := by
  obtain ⟨b, e, hb⟩ := tot_parseL ops _ h ht (live_wires n)
  rw [build_eq, e]
  show ∃ D, connect b b.qs.length = _
  rw [hb.len]
  obtain ⟨D, e1, -⟩ := connect_tot hb n le_rfl
  exact ⟨D, e1⟩

/-! ### What is accepted -/

theorem plain_transformable {ty : OpType} {ps : List Param} {q : ℕ} {q1 : Res ℕ} {b b' : Build} (e : plain ty ps q q1 b = .ok b')
    (nt : ℕ) : transformable1 ty 0 nt = true := by
  cases ty <;> first | rfl | cases e

theorem parseStd_transformable {p : PMap} {o : StdOp Param} {b b' : Build} (e : parseStd p o b = .ok b') :
    transformable1 o.type o.controls.card o.targets.length = true := by
  have hlen : (ctrlList o).length = o.controls.card := by
    unfold ctrlList; rw [Multiset.length_sort, Multiset.card_map]; rfl
  unfold parseStd at e
  by_cases hbar : o.type = .barrier
  · unfold transformable1; rw [if_pos hbar]
  rw [if_neg hbar] at e
  rw [← hlen]
  generalize ctrlList o = cl at *
  match cl, e with
  | [], e =>
    obtain ⟨q, -, e1⟩ := bind_ok e
    exact plain_transformable e1 _
  | [c], e =>
    simp only at e
    split_ifs at e with hl
    obtain ⟨q, -, e1⟩ := bind_ok e
    obtain ⟨c', -, e2⟩ := bind_ok e1
    rw [hl]
    generalize o.type = ty at *
    generalize o.params = ps at *
    clear e e1
    cases ty <;> first | rfl | cases e2
  | [c, d], e =>
    obtain ⟨q, -, e1⟩ := bind_ok e
    obtain ⟨c', -, e2⟩ := bind_ok e1
    obtain ⟨d', -, e3⟩ := bind_ok e2
    generalize o.type = ty at *
    clear e e1 e2
    generalize o.targets.length = nt
    cases ty <;> first | rfl | cases e3
  | c :: d :: f :: r, e => cases e

theorem gates_transformable (ops : List (Op Param)) : ∀ {os : List (StdOp Param)}, gates ops = some os →
    (transformableL ops = true ↔ ∀ o ∈ os, transformable1 o.type o.controls.card o.targets.length = true) := by
  induction ops using gates.induct with
  | case1 =>
    intro os h
    rw [gates] at h
    injection h with h
    subst h
    simp [transformableL]
  | case2 o r ih =>
    intro os h
    rcases gates_cons h with ⟨s, os', h1, h2, rfl⟩ | ⟨_, _, _, _, h1, -⟩
    · injection h1 with h1
      subst h1
      rw [transformableL, transformable, Bool.and_eq_true, ih h2]
      simp
    · cases h1
  | case3 ops k r ih1 ih2 =>
    intro os h
    rcases gates_cons h with ⟨s, os', h1, h2, rfl⟩ | ⟨_, _, os1, os', h1, h2, h3, rfl⟩
    · cases h1
    · injection h1 with h1 h1'
      subst h1
      rw [transformableL, transformable, Bool.and_eq_true, ih1 h2, ih2 h3]
      simp only [List.mem_append]
      constructor
      · rintro ⟨h4, h5⟩ o (ho | ho)
        · exact h4 o ho
        · exact h5 o ho
      · exact fun h4 => ⟨fun o ho => h4 o (.inl ho), fun o ho => h4 o (.inr ho)⟩
  | case4 qs cs r => intro os h; rw [gates] at h; cases h
  | case5 qs r => intro os h; rw [gates] at h; cases h
  | case6 k o r => intro os h; rw [gates] at h; cases h

theorem cx_transformable {o : Op Param} {s : StdOp Param} (hs : isCX o = some s) (hf : s.targets.length = 1) :
    transformable o = true := by
  have hi := isCX_std hs
  subst hi
  unfold isCX at hs
  simp only at hs
  split_ifs at hs with h1
  rw [transformable, h1.1, h1.2, hf]
  rfl

/-- Only circuits that are transformable are transformed, if all X have one target. -/
theorem parseL_transformable {p : PMap} (ops : List (Op Param)) (b : Build) : ∀ {os : List (StdOp Param)} {b' : Build},
    gates ops = some os → (∀ o ∈ os, o.type = .x → o.targets.length = 1) → parseL p ops b = .ok b' → transformableL ops = true := by
  induction ops, b using parseL.induct with
  | case1 b => intro os b' _ _ _; rfl
  | case2 ops k r b ih1 ih2 =>
    intro os b' hg hf e
    rw [parseL] at e
    obtain ⟨b1, e1, e2⟩ := bind_ok e
    rcases gates_cons hg with ⟨s, os', h, -⟩ | ⟨ops', k', os1, os', h, h1, h2, rfl⟩
    · cases h
    · injection h with h h'
      subst h h'
      rw [transformableL, transformable, ih1 h1 (fun o ho => hf o (List.mem_append_left _ ho)) e1,
        ih2 _ h2 (fun o ho => hf o (List.mem_append_right _ ho)) e2]
      rfl
  | case3 o o1 o2 r b hno ih1 ih2 =>
    intro os b' hg hf e
    rw [parseL] at e
    · obtain ⟨w, e1, e2⟩ := bind_ok e
      rcases gates_cons hg with ⟨s, l1, rfl, h1, rfl⟩ | ⟨ops', k', os1, os', h, -⟩
      swap
      · exact absurd h (hno _ _)
      cases w with
      | none =>
        obtain ⟨b1, e3, e4⟩ := bind_ok e2
        rw [transformableL, transformable, parseStd_transformable e3, ih2 _ h1 (fun o ho => hf o (List.mem_cons_of_mem _ ho)) e4]
        rfl
      | some ct =>
        obtain ⟨c, t⟩ := ct
        obtain ⟨b1, e3, e4⟩ := bind_ok e2
        obtain ⟨s0, s1, s2, -, -, -, -, he, he1, he2, -⟩ := swapAt_std e1
        have i0 := isCX_std he
        have i1 := isCX_std he1
        have i2 := isCX_std he2
        injection i0 with i0
        subst i0 i1 i2
        rcases gates_cons h1 with ⟨_, l2, h, h2, rfl⟩ | ⟨_, _, _, _, h, -⟩
        swap
        · cases h
        injection h with h
        subst h
        rcases gates_cons h2 with ⟨_, l3, h, h3, rfl⟩ | ⟨_, _, _, _, h, -⟩
        swap
        · cases h
        injection h with h
        subst h
        have hx : ∀ {s : StdOp Param}, isCX (.std s) = some s → s.type = .x := by
          intro s hs
          unfold isCX at hs
          simp only at hs
          split_ifs at hs with h
          exact h.1
        rw [transformableL, transformableL, transformableL, cx_transformable he (hf _ (by simp) (hx he)),
          cx_transformable he1 (hf _ (by simp) (hx he1)), cx_transformable he2 (hf _ (by simp) (hx he2)),
          ih1 _ h3 (fun o ho => hf o (by simp [ho])) e4]
        rfl
    · exact hno
  | case4 o r b hno1 hno2 ih =>
    intro os b' hg hf e
    rw [parseL] at e
    · obtain ⟨b1, e3, e4⟩ := bind_ok e
      rcases gates_cons hg with ⟨s, os', rfl, h2, rfl⟩ | ⟨ops', k', os1, os', h, -⟩
      · rw [transformableL, transformable, parseStd_transformable e3, ih _ h2 (fun o ho => hf o (List.mem_cons_of_mem _ ho)) e4]
        rfl
      · exact absurd h (hno1 _ _)
    · exact hno1
    · exact hno2

theorem build_transformable {p : PMap} {ops : List (Op Param)} {os : List (StdOp Param)} {D : Diagram}
    (hg : gates ops = some os) (hx : ∀ o ∈ os, o.type = .x → o.targets.length = 1) (e : build n p ops = .ok D) :
    transformableL ops = true := by
  rw [build_eq] at e
  obtain ⟨b, e1, -⟩ := bind_ok e
  exact parseL_transformable ops _ hg hx e1

end Build

end MQT.ZX

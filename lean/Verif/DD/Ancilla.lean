/-
Projecting ancillary qubits of matrix decision diagrams to |0⟩.

Source in /repo: src/dd/Package.cpp 1122-1124 (`createInitialMatrix`), 1125-1172
(`reduceAncillae`), 1267-1339 (`reduceAncillaeRecursion`).

Simplifications: weights are exact; reference counting is left out; the sharing of results
between successors with the same node (`handled`) is transparent and left out.  The vector
`ancillary` being shorter than the highest level of the diagram is an out-of-bounds access
(`none`).
-/
import Verif.DD.Multiply
import Verif.DD.Canonical
import Mathlib.Data.List.GetD

set_option autoImplicit false

noncomputable section

open Classical
open Function (update)

namespace MQT.DD

open MQT.IR (Bits State)

/-! ### Model -/

/-- `ancillary[q]`. -/
def isAnc (anc : List Bool) (q : ℕ) : Bool := anc.getD q false

/-- The loop over the levels `lo, …, lo + k - 1` that are skipped in the diagram: on each
ancillary level `g = makeDDNode(j, {g, 0, 0, 0})`. -/
def padAnc (anc : List Bool) (lo : ℕ) : ℕ → MEdge → MEdge
  | 0, g => g
  | k + 1, g =>
    if isAnc anc (lo + k) = true then
      makeM (lo + k) fun b => if b = (false, false) then padAnc anc lo k g else .zero
    else padAnc anc lo k g

/-- `reduceAncillaeRecursion`; it is not called on the terminal. -/
def reduceRec (anc : List Bool) (lb : ℕ) (reg : Bool) : MNode → MEdge
  | .term => .one
  | .node v w c =>
    if v < lb then ⟨.node v w c, 1⟩
    else
      let edges : RC → MEdge := fun b =>
        if c b = .term ∧ w b = 0 then ⟨c b, w b⟩
        else
          match c b with
          | .term => ⟨(padAnc anc lb (v - lb) .one).p, w b⟩
          | .node v' _ _ =>
            let r := padAnc anc (v' + 1) (v - (v' + 1)) (reduceRec anc lb reg (c b))
            ⟨r.p, r.w * w b⟩
      if isAnc anc v = true then
        makeM v fun b => if (if reg then b.2 else b.1) = true then .zero else edges b
      else makeM v edges

/-- The first ancillary qubit (`lowerbound`). -/
def firstAnc (anc : List Bool) : ℕ := (anc.findIdx? (· = true)).getD 0

/-- `reduceAncillae`. -/
def reduceAncillae (e : MEdge) (anc : List Bool) (reg : Bool) : Option MEdge :=
  if anc.all (fun v => !v) = true ∨ (e.p = .term ∧ e.w = 0) then some e
  else
    match e.p with
    | .term => some (padAnc anc 0 anc.length e)
    | .node v w c =>
      if firstAnc anc ≤ v ∧ anc.length ≤ v then none
      else
        let g := if firstAnc anc ≤ v then reduceRec anc (firstAnc anc) reg (.node v w c)
          else ⟨.node v w c, 1⟩
        let g := padAnc anc (v + 1) (anc.length - (v + 1)) g
        some (⟨g.p, g.w * e.w⟩ : MEdge).lookup

/-- `createInitialMatrix`. -/
def createInitialMatrix (anc : List Bool) : Option MEdge := reduceAncillae .one anc true

/-! ### Specification -/

/-- The bit of the index that decides whether an entry survives: the column for regular, the row
for irregular reduction. -/
def sel (reg : Bool) (x y : Bits) (q : ℕ) : Bool := if reg then y q else x q

/-- All ancillary qubits in `[lo, hi)` are 0. -/
def AncZero (anc : List Bool) (reg : Bool) (lo hi : ℕ) (x y : Bits) : Prop :=
  ∀ q, lo ≤ q → q < hi → isAnc anc q = true → sel reg x y q = false

theorem padAnc_spec (anc : List Bool) (reg : Bool) (lo : ℕ) {g : MEdge} (hg : MOk lo g) (k : ℕ) :
    MOk (lo + k) (padAnc anc lo k g) ∧ ∀ x y,
      (padAnc anc lo k g).mat (lo + k) x y =
        if AncZero anc reg lo (lo + k) x y then g.mat (lo + k) x y else 0 := by
  induction k with
  | zero =>
    refine ⟨hg, fun x y => ?_⟩
    rw [if_pos (by intro q h1 h2; omega)]
    rfl
  | succ k ih =>
    obtain ⟨ih1, ih2⟩ := ih
    have hsplit : ∀ x y, AncZero anc reg lo (lo + (k + 1)) x y ↔
        AncZero anc reg lo (lo + k) x y ∧
          (isAnc anc (lo + k) = true → sel reg x y (lo + k) = false) := by
      intro x y
      constructor
      · exact fun h => ⟨fun q h1 h2 => h q h1 (by omega), h (lo + k) (by omega) (by omega)⟩
      · rintro ⟨h, h'⟩ q h1 h2
        by_cases hq : q = lo + k
        · subst hq; exact h'
        · exact h q h1 (by omega)
    have hlift : ∀ x y, g.mat (lo + (k + 1)) x y =
        if x (lo + k) = y (lo + k) then g.mat (lo + k) x y else 0 := by
      intro x y
      by_cases h0 : g.w = 0
      · simp [Edge.mat, h0]
      · unfold Edge.mat
        rw [← add_assoc, mval_skip (hg h0) (by omega)]
        split_ifs <;> simp
    rw [padAnc]
    by_cases ha : isAnc anc (lo + k) = true
    · rw [if_pos ha]
      have hok : ∀ b : RC, MOk (lo + k)
          (if b = (false, false) then padAnc anc lo k g else .zero) := by
        intro b
        split_ifs
        · exact ih1
        · exact MOk.zero _
      refine ⟨(makeM_can hok).2, fun x y => ?_⟩
      have := makeM_mat hok x y
      rw [← add_assoc, this, add_assoc, hlift]
      simp only [hsplit, ha, true_imp_iff]
      have hm := ih2 x y
      cases hx : x (lo + k) <;> cases hy : y (lo + k) <;> cases reg <;>
        simp [sel, hx, hy, hm]
    · rw [if_neg ha]
      refine ⟨ih1.up (by omega), fun x y => ?_⟩
      rw [mat_lift ih1 (by omega), hlift, ih2]
      simp only [hsplit, ha]
      have : (∀ q, lo + k ≤ q → q < lo + (k + 1) → x q = y q) ↔ x (lo + k) = y (lo + k) := by
        constructor
        · exact fun h => h _ le_rfl (by omega)
        · intro h q h1 h2
          obtain rfl : q = lo + k := by omega
          exact h
      simp only [this]
      split_ifs <;> simp_all

theorem padAnc_can (anc : List Bool) (lo : ℕ) {g : MEdge} (hg : MECan lo g) (k : ℕ) :
    MECan (lo + k) (padAnc anc lo k g) := by
  induction k with
  | zero => exact hg
  | succ k ih =>
    rw [padAnc]
    split_ifs
    · apply makeM_can
      intro b
      split_ifs
      · exact ih.2
      · exact MOk.zero _
    · exact ih.up (by omega)

theorem mtop_first {w : RC → ℂ} (h0 : w (false, false) = 1) (h : ∀ b, b ≠ (false, false) → w b = 0) :
    mtop w = 1 := by
  have hm : ∀ b, w b = if b = (false, false) then 1 else 0 := by
    intro b
    split_ifs with hb
    · rw [hb, h0]
    · exact h b hb
  obtain ⟨b, hb⟩ : ∃ b, mtop w = w b := by
    unfold mtop
    cases hm' : marg w with
    | none =>
      exact ⟨(true, true), by rw [hm]; rfl⟩
    | some m => exact ⟨m, rfl⟩
  rw [hb, hm]
  split_ifs with h1
  · rfl
  · exfalso
    rw [hm, if_neg h1] at hb
    have := (mtop_eq_zero w).1 hb (false, false)
    rw [h0] at this
    exact one_ne_zero this

theorem padAnc_weight (anc : List Bool) (lo : ℕ) (k : ℕ) (g : MEdge) (hg : g.w = 1) :
    (padAnc anc lo k g).w = 1 := by
  induction k with
  | zero => exact hg
  | succ k ih =>
    rw [padAnc]
    split_ifs with h
    · have hw : mtop (fun b : RC => (if b = (false, false) then padAnc anc lo k g else .zero : MEdge).w)
          = 1 := by
        apply mtop_first
        · simp [ih]
        · intro b hb; simp [hb]
      unfold makeM
      rw [mNormalize_eq, hw, if_neg one_ne_zero]
      unfold skipId
      simp only
      rw [if_neg]
      rintro ⟨_, _, _, _, h5⟩
      simp at h5
    · exact ih

theorem one_mecan (n : ℕ) : MECan n .one :=
  ⟨fun h => absurd h one_ne_zero, fun _ => trivial⟩

theorem isAnc_lt_first {anc : List Bool} {q : ℕ} (h : q < firstAnc anc) : isAnc anc q = false := by
  unfold firstAnc at h
  cases hf : anc.findIdx? (· = true) with
  | none => rw [hf] at h; simp at h
  | some i =>
    rw [hf, Option.getD_some] at h
    rw [List.findIdx?_eq_some_iff_getElem] at hf
    obtain ⟨hi, _, h2⟩ := hf
    have := h2 q h
    unfold isAnc
    rw [List.getD_eq_getElem _ _ (by omega)]
    simpa using this

theorem AncZero.split {anc : List Bool} {reg : Bool} {lo mid hi : ℕ} {x y : Bits} (h1 : lo ≤ mid)
    (h2 : mid ≤ hi) : AncZero anc reg lo hi x y ↔
      AncZero anc reg lo mid x y ∧ AncZero anc reg mid hi x y := by
  constructor
  · exact fun h => ⟨fun q a b => h q a (by omega), fun q a b => h q (by omega) b⟩
  · rintro ⟨h, h'⟩ q a b
    by_cases hq : q < mid
    · exact h q a hq
    · exact h' q (by omega) b

theorem reduceRec_spec (anc : List Bool) (lb : ℕ) (reg : Bool)
    (hlb : ∀ q < lb, isAnc anc q = false) (p : MNode) :
    ∀ v w c, p = .node v w c → ∀ m, MCan m p → MECan (v + 1) (reduceRec anc lb reg p) ∧ ∀ x y,
      (reduceRec anc lb reg p).mat (v + 1) x y =
        if AncZero anc reg 0 (v + 1) x y then mval (v + 1) p x y else 0 := by
  induction p with
  | term => intro v w c h; cases h
  | node v w c ih =>
    intro v' w' c' hp m hm
    cases hp
    obtain ⟨_, h2, h3, h4⟩ := hm
    have hself : MCan (v + 1) (.node v w c : MNode) := ⟨by omega, h2, h3, h4⟩
    rw [reduceRec]
    by_cases hv : v < lb
    · rw [if_pos hv]
      refine ⟨⟨fun h => absurd h one_ne_zero, fun _ => hself⟩, fun x y => ?_⟩
      rw [if_pos (by
        intro q _ hq ha
        rw [hlb q (by omega)] at ha
        cases ha)]
      simp [Edge.mat]
    · rw [if_neg hv]
      simp only
      set edges : RC → MEdge := fun b =>
        if c b = .term ∧ w b = 0 then ⟨c b, w b⟩
        else
          match c b with
          | .term => ⟨(padAnc anc lb (v - lb) .one).p, w b⟩
          | .node v' _ _ =>
            ⟨(padAnc anc (v' + 1) (v - (v' + 1)) (reduceRec anc lb reg (c b))).p,
              (padAnc anc (v' + 1) (v - (v' + 1)) (reduceRec anc lb reg (c b))).w * w b⟩ with hed
      have hedges : ∀ b, MOk v (edges b) ∧ ∀ x y, (edges b).mat v x y =
          if AncZero anc reg 0 v x y then w b * mval v (c b) x y else 0 := by
        intro b
        obtain ⟨k1, k2⟩ := h4 b
        by_cases h0 : w b = 0
        · have : edges b = .zero := by
            rw [hed]; simp only
            rw [if_pos ⟨k1 h0, h0⟩, k1 h0, h0]; rfl
          rw [this]
          refine ⟨MOk.zero _, fun x y => ?_⟩
          rw [h0]; simp
        · have hc := k2 h0
          cases hcb : c b with
          | term =>
            have : edges b = ⟨(padAnc anc lb (v - lb) .one).p, w b⟩ := by
              rw [hed]; simp only
              rw [if_neg (fun h => h0 h.2), hcb]
            obtain ⟨s1, s2⟩ := padAnc_spec anc reg lb (one_mecan lb).2 (v - lb)
            have hw1 := padAnc_weight anc lb (v - lb) .one rfl
            have hvl : lb + (v - lb) = v := by omega
            rw [hvl] at s1 s2
            rw [this]
            refine ⟨fun _ => s1 (by rw [hw1]; exact one_ne_zero), fun x y => ?_⟩
            have e1 := s2 x y
            unfold Edge.mat at e1 ⊢
            rw [hw1, one_mul] at e1
            simp only
            rw [e1]
            have : AncZero anc reg lb v x y ↔ AncZero anc reg 0 v x y := by
              rw [AncZero.split (lo := 0) (mid := lb) (by omega) (by omega)]
              simp only [iff_and_self]
              intro _ q _ hq ha
              rw [hlb q hq] at ha
              cases ha
            simp only [this]
            split_ifs
            · simp [Edge.one]
            · simp
          | node v' w' c' =>
            have : edges b = ⟨(padAnc anc (v' + 1) (v - (v' + 1)) (reduceRec anc lb reg (c b))).p,
              (padAnc anc (v' + 1) (v - (v' + 1)) (reduceRec anc lb reg (c b))).w * w b⟩ := by
              rw [hed]; simp only
              rw [if_neg (fun h => h0 h.2), hcb]
            have hlt : v' < v := by rw [hcb] at hc; exact hc.1
            obtain ⟨r1, r2⟩ := ih b v' w' c' hcb v hc
            obtain ⟨s1, s2⟩ := padAnc_spec anc reg (v' + 1) r1.2 (v - (v' + 1))
            have hvl : v' + 1 + (v - (v' + 1)) = v := by omega
            rw [hvl] at s1 s2
            rw [this]
            refine ⟨fun h => s1 (left_ne_zero_of_mul h), fun x y => ?_⟩
            have e1 := s2 x y
            have e2 : (reduceRec anc lb reg (c b)).mat v x y =
                if AncZero anc reg 0 (v' + 1) x y then mval v (c b) x y else 0 := by
              rw [mat_lift r1.2 (by omega), r2]
              have hc' : MOk (v' + 1) (⟨c b, 1⟩ : MEdge) := fun _ => by
                rw [hcb] at hc ⊢; exact ⟨by omega, hc.2⟩
              have := mat_lift hc' (show v' + 1 ≤ v by omega) x y
              unfold Edge.mat at this
              simp only [one_mul] at this
              rw [this]
              split_ifs <;> rfl
            rw [e2] at e1
            unfold Edge.mat at e1 ⊢
            simp only
            rw [mul_assoc, mul_comm (w b), ← mul_assoc, e1, ← hcb]
            rw [AncZero.split (lo := 0) (mid := v' + 1) (hi := v) (by omega) (by omega)]
            split_ifs <;> first | ring1 | (exfalso; tauto)
      have hmv : ∀ x y, mval (v + 1) (.node v w c) x y
          = w (x v, y v) * mval v (c (x v, y v)) x y := by
        intro x y
        rw [mval]
        simp [expand]
      have hsp : ∀ x y, AncZero anc reg 0 (v + 1) x y ↔
          AncZero anc reg 0 v x y ∧ (isAnc anc v = true → sel reg x y v = false) := by
        intro x y
        rw [AncZero.split (lo := 0) (mid := v) (by omega) (by omega)]
        refine and_congr_right fun _ => ⟨fun h => h v le_rfl (by omega), fun h q h1 h2 => ?_⟩
        obtain rfl : q = v := by omega
        exact h
      by_cases ha : isAnc anc v = true
      · rw [if_pos ha]
        have hok : ∀ b : RC, MOk v (if (if reg then b.2 else b.1) = true then .zero else edges b) := by
          intro b
          by_cases h : (if reg then b.2 else b.1) = true
          · rw [if_pos h]; exact MOk.zero _
          · rw [if_neg h]; exact (hedges b).1
        refine ⟨makeM_can hok, fun x y => ?_⟩
        rw [makeM_mat hok, hmv]
        simp only [hsp, ha, true_imp_iff]
        have : (if reg = true then y v else x v) = sel reg x y v := rfl
        rw [this]
        cases hs : sel reg x y v
        · simp only [Bool.false_eq_true, if_false, and_true]
          exact (hedges _).2 x y
        · simp
      · rw [if_neg ha]
        refine ⟨makeM_can fun b => (hedges b).1, fun x y => ?_⟩
        rw [makeM_mat fun b => (hedges b).1, hmv, (hedges _).2]
        have : AncZero anc reg 0 (v + 1) x y ↔ AncZero anc reg 0 v x y := by
          rw [hsp]; exact and_iff_left fun h => absurd h ha
        simp only [this]

theorem reduceAncillae_spec {n : ℕ} {e : MEdge} (he : MECan n e) {anc : List Bool}
    (hn : anc.length = n) (reg : Bool) :
    ∃ r, reduceAncillae e anc reg = some r ∧ MECan n r ∧ ∀ x y,
      r.mat n x y = if AncZero anc reg 0 n x y then e.mat n x y else 0 := by
  unfold reduceAncillae
  by_cases h0 : anc.all (fun v => !v) = true ∨ (e.p = .term ∧ e.w = 0)
  · rw [if_pos h0]
    refine ⟨e, rfl, he, fun x y => ?_⟩
    rcases h0 with h0 | h0
    · rw [if_pos]
      intro q _ hq ha
      rw [List.all_eq_true] at h0
      unfold isAnc at ha
      rw [List.getD_eq_getElem _ _ (by omega)] at ha
      have := h0 _ (List.getElem_mem (by omega : q < anc.length))
      rw [ha] at this
      cases this
    · simp [Edge.mat, h0.2]
  · rw [if_neg h0]
    push Not at h0
    obtain ⟨_, h0⟩ := h0
    cases hp : e.p with
    | term =>
      simp only
      have he0 : MECan 0 e := ⟨he.1, fun _ => by rw [hp]; trivial⟩
      obtain ⟨_, s2⟩ := padAnc_spec anc reg 0 he0.2 anc.length
      have s1 := padAnc_can anc 0 he0 anc.length
      rw [zero_add, hn] at s1 s2
      rw [hn]
      exact ⟨_, rfl, s1, s2⟩
    | node v w c =>
      simp only
      have hw : e.w ≠ 0 := fun h => by rw [he.1 h] at hp; cases hp
      have hc := he.2 hw
      rw [hp] at hc
      have hvn : v < n := hc.1
      have hself : MCan (v + 1) (.node v w c : MNode) := ⟨by omega, hc.2⟩
      rw [if_neg (by omega)]
      have hg : ∃ g, (if firstAnc anc ≤ v then reduceRec anc (firstAnc anc) reg (.node v w c)
          else ⟨.node v w c, 1⟩) = g ∧ MECan (v + 1) g ∧ ∀ x y, g.mat (v + 1) x y =
          if AncZero anc reg 0 (v + 1) x y then mval (v + 1) (.node v w c) x y else 0 := by
        by_cases hf : firstAnc anc ≤ v
        · rw [if_pos hf]
          obtain ⟨r1, r2⟩ := reduceRec_spec anc (firstAnc anc) reg (fun q hq => isAnc_lt_first hq)
            (.node v w c) v w c rfl n hc
          exact ⟨_, rfl, r1, r2⟩
        · rw [if_neg hf]
          refine ⟨_, rfl, ⟨fun h => absurd h one_ne_zero, fun _ => hself⟩, fun x y => ?_⟩
          rw [if_pos (by
            intro q _ hq ha
            rw [isAnc_lt_first (by omega)] at ha
            cases ha)]
          simp [Edge.mat]
      obtain ⟨g, g1, g2, g3⟩ := hg
      rw [g1]
      obtain ⟨s1, s2⟩ := padAnc_spec anc reg (v + 1) g2.2 (anc.length - (v + 1))
      have hvl : v + 1 + (anc.length - (v + 1)) = n := by omega
      rw [hvl] at s1 s2
      refine ⟨_, rfl, MOk.lookup fun h => s1 (left_ne_zero_of_mul h), fun x y => ?_⟩
      rw [lookup_mat]
      have e1 := s2 x y
      have e2 : g.mat n x y = if AncZero anc reg 0 (v + 1) x y then mval n (.node v w c) x y else 0 := by
        rw [mat_lift g2.2 (by omega), g3]
        have hc' : MOk (v + 1) (⟨.node v w c, 1⟩ : MEdge) := fun _ => hself
        have := mat_lift hc' (show v + 1 ≤ n by omega) x y
        unfold Edge.mat at this
        simp only [one_mul] at this
        rw [this]
        split_ifs <;> rfl
      rw [e2] at e1
      unfold Edge.mat at e1 ⊢
      simp only
      rw [mul_assoc, mul_comm e.w, ← mul_assoc, e1, hp]
      rw [AncZero.split (lo := 0) (mid := v + 1) (hi := n) (by omega) (by omega)]
      split_ifs <;> first | ring1 | (exfalso; tauto)

theorem createInitialMatrix_spec (anc : List Bool) :
    ∃ r, createInitialMatrix anc = some r ∧ MECan anc.length r ∧ ∀ x y,
      r.mat anc.length x y = if (∀ q < anc.length, isAnc anc q = true → y q = false) ∧
        ∀ q < anc.length, x q = y q then 1 else 0 := by
  obtain ⟨r, h1, h2, h3⟩ := reduceAncillae_spec (one_mecan anc.length) rfl true
  refine ⟨r, h1, h2, fun x y => ?_⟩
  rw [h3, mat_lift (one_mecan 0).2 (by omega)]
  have e1 : (Edge.one : MEdge).mat 0 x y = 1 := by simp [Edge.mat, Edge.one, mval]
  have e2 : AncZero anc true 0 anc.length x y ↔
      ∀ q < anc.length, isAnc anc q = true → y q = false :=
    ⟨fun h q hq => h q (by omega) hq, fun h q _ hq => h q hq⟩
  have e3 : (∀ q, 0 ≤ q → q < anc.length → x q = y q) ↔ ∀ q < anc.length, x q = y q :=
    ⟨fun h q hq => h q (by omega) hq, fun h q _ hq => h q hq⟩
  simp only [e1, e2, e3]
  split_ifs <;> first | rfl | tauto

end MQT.DD

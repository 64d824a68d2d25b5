/-
Measurement of states given as decision diagrams.

Source in /repo: src/dd/Package.cpp 625-690 (`measureAll`), 691-703
(`assignProbabilities`), 704-765 (`determineMeasurementProbabilities`), 766-787
(`measureOneCollapsing` for vectors), 823-839 (`performCollapsingMeasurement`);
include/mqt-core/dd/GateMatrixDefinitions.hpp 19-23.

Simplifications: weights and probabilities are exact; the numbers drawn from
`uniform_real_distribution(0, 1)` are inputs; pointers are compared as trees; reference
counting is left out.  Access to `front()` of an empty queue and to members of the terminal
(a null pointer) is undefined.
-/
import Verif.DD.Gate
import Verif.DD.States

set_option autoImplicit false
set_option linter.unusedVariables false

noncomputable section

open Classical
open Function (update)
open Complex (normSq)

namespace MQT.DD

open MQT.IR (Bits State Mat1)

/-! ### Model -/

/-- The number of nodes of the tree, terminals included. -/
def Node.size : VNode → ℕ
  | .term => 1
  | .node _ _ c => 1 + (c false).size + (c true).size

/-- The local variables of `determineMeasurementProbabilities`. -/
structure Bfs where
  prob : VNode → ℝ
  visited : List VNode
  queue : List VNode

/-- The treatment of one successor (Package.cpp 719-746). -/
def Bfs.visit (s : Bfs) (prob : ℝ) (w : ℂ) (p : VNode) : Bfs :=
  if w = 0 then s
  else if p ∈ s.visited then { s with prob := update s.prob p (s.prob p + prob * normSq w) }
  else
    { prob := update s.prob p (prob * normSq w), visited := p :: s.visited,
      queue := s.queue ++ [p] }

theorem Bfs.visit_size (s : Bfs) (x : ℝ) (w : ℂ) (p : VNode) :
    ((s.visit x w p).queue.map Node.size).sum ≤ (s.queue.map Node.size).sum + p.size := by
  unfold Bfs.visit
  split_ifs <;> simp

/-- The first loop: nodes are expanded until the front of the queue is on the measured level. -/
def Bfs.run (index : ℕ) (s : Bfs) : Option Bfs :=
  match hq : s.queue with
  | [] => none
  | .term :: _ => none
  | .node v w c :: rest =>
    if v = index then some s
    else
      let prob := s.prob (.node v w c)
      Bfs.run index (({ s with queue := rest }.visit prob (w false) (c false)).visit
        prob (w true) (c true))
termination_by (s.queue.map Node.size).sum
decreasing_by
  rw [hq]
  refine lt_of_le_of_lt (Bfs.visit_size _ _ _ _) ?_
  refine lt_of_le_of_lt (Nat.add_le_add_right (Bfs.visit_size _ _ _ _) _) ?_
  simp [Node.size]
  omega

/-- The second loop. -/
def sumProbs (prob : VNode → ℝ) : List VNode → Option (ℝ × ℝ)
  | [] => some (0, 0)
  | .term :: _ => none
  | .node v w c :: rest =>
    (sumProbs prob rest).map fun r =>
      (r.1 + (if w false = 0 then 0 else prob (.node v w c) * normSq (w false)),
        r.2 + (if w true = 0 then 0 else prob (.node v w c) * normSq (w true)))

/-- `determineMeasurementProbabilities`. -/
def determineMeasurementProbabilities (e : VEdge) (index : ℕ) : Option (ℝ × ℝ) :=
  (Bfs.run index ⟨update (fun _ => 0) e.p (normSq e.w), [e.p], [e.p]⟩).bind fun s =>
    sumProbs s.prob s.queue

/-- `MEAS_ZERO_MAT` and `MEAS_ONE_MAT`. -/
def measMat (b : Bool) : Mat1 := fun r c => if r = b ∧ c = b then 1 else 0

/-- `performCollapsingMeasurement`; `b` is the outcome. -/
def collapse (nqubits : ℕ) (e : VEdge) (index : ℕ) (probability : ℝ) (b : Bool) : Res VEdge :=
  match makeGateDD nqubits (measMat b) [] index with
  | none => .throw
  | some g =>
    match mvmul g e with
    | none => .ub
    | some r => .ok ⟨r.p, r.w / ((√probability : ℝ) : ℂ)⟩

/-- `measureOneCollapsing` on a state; `draw` is the random number. -/
def measureOne (nqubits : ℕ) (e : VEdge) (index : ℕ) (eps draw : ℝ) : Res (Bool × VEdge) :=
  match determineMeasurementProbabilities e index with
  | none => .ub
  | some (p0, p1) =>
    if |p0 + p1 - 1| > eps then .throw
    else
      let b := !decide (draw < p0 / (p0 + p1))
      match collapse nqubits e index (if b then p1 else p0) b with
      | .ok e' => .ok (b, e')
      | .throw => .throw
      | .ub => .ub

/-- The loop of `measureAll`; the first argument is `i`, `draw` is indexed by the level on
which the number is used (level `n - 1` uses the first number drawn). -/
def measureLoop (eps : ℝ) (draw : ℕ → ℝ) : ℕ → VNode → Bits → Res Bits
  | 0, _, r => .ok r
  | _ + 1, .term, _ => .ub
  | i + 1, .node v w c, r =>
    let p0 := normSq (w false)
    let p1 := normSq (w true)
    if |p0 + p1 - 1| > eps then .throw
    else if draw i < p0 / (p0 + p1) then measureLoop eps draw i (c false) r
    else measureLoop eps draw i (c true) (update r v true)

/-- The state after a collapsing `measureAll` (Package.cpp 669-686). -/
def collapsed (n : ℕ) (r : Bits) : VEdge :=
  (List.range n).foldl (fun f p => makeVE p (if r p then pair .zero f else pair f .zero)) .one

/-- `measureAll`: the result (qubit to outcome; the code returns it as a string with qubit 0
last) and the new root. -/
def measureAll (e : VEdge) (coll : Bool) (eps : ℝ) (draw : ℕ → ℝ) : Res (Bits × VEdge) :=
  if |normSq e.w - 1| > eps ∧ e.w = 0 then .throw
  else
    match e.p with
    | .term => .ok (fun _ => false, e)
    | .node v w c =>
      match measureLoop eps draw (v + 1) (.node v w c) (fun _ => false) with
      | .ok r => .ok (r, if coll then collapsed (v + 1) r else e)
      | .throw => .throw
      | .ub => .ub

/-- `assignProbabilities`, with the map threaded through. -/
def assignProbs : VNode → ℂ → (VNode → Option ℝ) → ℝ × (VNode → Option ℝ)
  | .term, w, m =>
    match m .term with
    | some s => (normSq w * s, m)
    | none => (normSq w * 1, update m .term (some 1))
  | .node v w' c, w, m =>
    match m (.node v w' c) with
    | some s => (normSq w * s, m)
    | none =>
      let r0 := assignProbs (c false) (w' false) m
      let r1 := assignProbs (c true) (w' true) r0.2
      let sum := r0.1 + r1.1
      (normSq w * sum, update r1.2 (.node v w' c) (some sum))

/-! ### Total probability and probability of one outcome -/

/-- The probability of outcome `b` on qubit `idx`, for a node on top of `n` qubits. -/
def mass (n idx : ℕ) (b : Bool) (p : VNode) (s : Bits) : ℝ :=
  sumB n (fun z => if z idx = b then normSq (vval p z) else 0) s

theorem sumB_mul_left' (n : ℕ) (f : Bits → ℝ) (c : ℝ) (s : Bits) :
    sumB n (fun z => c * f z) s = c * sumB n f s := by
  induction n generalizing s with
  | zero => rfl
  | succ n ih => rw [sumB, sumB, ih, ih, mul_add]

/-- The amplitudes of a node are normalised. -/
theorem VCan.total {n : ℕ} {p : VNode} (h : VCan n p) (s : Bits) :
    sumB n (fun z => normSq (vval p z)) s = 1 := by
  induction p generalizing n s with
  | term => obtain rfl : n = 0 := h
            simp [sumB, vval]
  | node v w c ih =>
    obtain ⟨rfl, h2, h3⟩ := h
    have hb : ∀ b, sumB v (fun z => normSq (vval (.node v w c) z)) (update s v b) = normSq (w b) := by
      intro b
      have e : sumB v (fun z => normSq (vval (.node v w c) z)) (update s v b)
          = sumB v (fun z => normSq (w b) * normSq (vval (c b) z)) (update s v b) := by
        apply sumB_congr
        intro z hz
        have : z v = b := by rw [hz v le_rfl, Function.update_self]
        rw [vval, this, map_mul]
      rw [e, sumB_mul_left']
      by_cases h0 : w b = 0
      · rw [h0, map_zero, zero_mul]
      · rw [ih b ((h3 b).2 h0), mul_one]
    rw [sumB, hb, hb, ← vtop_normSq, h2, map_one]

theorem mass_base {n idx : ℕ} (hi : idx < n) (b : Bool) {p : VNode} (h : VCan n p) (s s' : Bits) :
    mass n idx b p s = mass n idx b p s' := by
  unfold mass
  apply sumB_base
  intro x y hxy
  rw [hxy idx hi, vval_congr h hxy]

theorem mass_succ (v idx : ℕ) (b : Bool) (w : Bool → ℂ) (c : Bool → VNode) (s : Bits) :
    mass (v + 1) idx b (.node v w c) s
      = normSq (w false) * mass v idx b (c false) (update s v false)
        + normSq (w true) * mass v idx b (c true) (update s v true) := by
  have hb : ∀ d, sumB v (fun z => if z idx = b then normSq (vval (.node v w c) z) else 0)
      (update s v d) = normSq (w d) * mass v idx b (c d) (update s v d) := by
    intro d
    unfold mass
    rw [← sumB_mul_left']
    apply sumB_congr
    intro z hz
    have : z v = d := by rw [hz v le_rfl, Function.update_self]
    rw [vval, this, map_mul]
    split_ifs <;> simp
  rw [mass, sumB, hb, hb]

/-- On the measured level the probabilities are the squared weights. -/
theorem mass_top {idx : ℕ} (b : Bool) {w : Bool → ℂ} {c : Bool → VNode}
    (h : VCan (idx + 1) (.node idx w c)) (s : Bits) :
    mass (idx + 1) idx b (.node idx w c) s = normSq (w b) := by
  obtain ⟨_, h2, h3⟩ := h
  have hb : ∀ d, normSq (w d) * mass idx idx b (c d) (update s idx d)
      = if d = b then normSq (w b) else 0 := by
    intro d
    have e : mass idx idx b (c d) (update s idx d)
        = sumB idx (fun z => if d = b then normSq (vval (c d) z) else 0) (update s idx d) := by
      unfold mass
      apply sumB_congr
      intro z hz
      rw [hz idx le_rfl, Function.update_self]
    rw [e]
    by_cases hd : d = b
    · subst hd
      simp only [if_true]
      by_cases h0 : w d = 0
      · rw [h0]; simp
      · rw [((h3 d).2 h0).total, mul_one]
    · simp only [hd, if_false]
      rw [sumB_zero, mul_zero]
  rw [mass_succ, hb, hb]
  cases b <;> simp

/-! ### The breadth-first traversal -/

/-- Sum of `prob p * m p` over a list of nodes. -/
def wsum (prob m : VNode → ℝ) (l : List VNode) : ℝ := (l.map fun p => prob p * m p).sum

theorem wsum_cons (prob m : VNode → ℝ) (p : VNode) (l : List VNode) :
    wsum prob m (p :: l) = prob p * m p + wsum prob m l := by
  unfold wsum; simp

theorem wsum_append (prob m : VNode → ℝ) (l l' : List VNode) :
    wsum prob m (l ++ l') = wsum prob m l + wsum prob m l' := by
  unfold wsum; simp

theorem wsum_update_of_notMem (prob m : VNode → ℝ) (p : VNode) (x : ℝ) (l : List VNode)
    (h : p ∉ l) : wsum (update prob p x) m l = wsum prob m l := by
  unfold wsum
  congr 1
  apply List.map_congr_left
  intro q hq
  have hne : q ≠ p := by rintro rfl; exact h hq
  rw [Function.update_of_ne hne]

theorem wsum_update_of_mem (prob m : VNode → ℝ) (p : VNode) (x : ℝ) (l : List VNode)
    (h : p ∈ l) (hn : l.Nodup) :
    wsum (update prob p (prob p + x)) m l = wsum prob m l + x * m p := by
  induction l with
  | nil => simp at h
  | cons q l ih =>
    rw [wsum_cons, wsum_cons]
    rw [List.nodup_cons] at hn
    by_cases e : q = p
    · subst e
      rw [Function.update_self, wsum_update_of_notMem _ _ _ _ _ hn.1]
      ring
    · rw [Function.update_of_ne e, ih (List.mem_of_ne_of_mem (Ne.symm e) h) hn.2]
      ring

theorem VCan.level_unique {m n : ℕ} {p : VNode} (h : VCan m p) (h' : VCan n p) : m = n := by
  cases p with
  | term => exact (h : m = 0).trans (h' : n = 0).symm
  | node v w c => exact h.1.trans h'.1.symm

/-- Invariant while the nodes `A` of level `L` are being expanded; `B` are the nodes of the
next level found so far, `D` is the probability that has not been handed on yet. -/
structure Bfs.Inv (idx : ℕ) (M : Bool → ℝ) (L : ℕ) (A B : List VNode) (D : Bool → ℝ) (s : Bfs) :
    Prop where
  queue : s.queue = A ++ B
  nodupA : A.Nodup
  nodupB : B.Nodup
  canA : ∀ p ∈ A, VCan (L + 1) p
  canB : ∀ p ∈ B, VCan L p
  seen : ∀ p ∈ A ++ B, p ∈ s.visited
  level : ∀ p ∈ s.visited, ∃ k, L ≤ k ∧ VCan k p
  visB : ∀ p ∈ s.visited, VCan L p → p ∈ B
  mass : ∀ b, wsum s.prob (fun p => mass (L + 1) idx b p (fun _ => false)) A
    + wsum s.prob (fun p => MQT.DD.mass L idx b p (fun _ => false)) B + D b = M b

theorem Bfs.Inv.visit {idx : ℕ} {M : Bool → ℝ} {L : ℕ} {A B : List VNode} {D : Bool → ℝ}
    {s : Bfs} (h : s.Inv idx M L A B D) (pr : ℝ) (w : ℂ) (p : VNode) (hp : w ≠ 0 → VCan L p)
    (D' : Bool → ℝ)
    (hD : ∀ b, D b = D' b + pr * normSq w * MQT.DD.mass L idx b p (fun _ => false)) :
    ∃ B', (s.visit pr w p).Inv idx M L A B' D' ∧ (w ≠ 0 → B' ≠ []) ∧ (B ≠ [] → B' ≠ []) := by
  unfold Bfs.visit
  by_cases hw : w = 0
  · rw [if_pos hw]
    refine ⟨B, { h with mass := fun b => ?_ }, fun h' => absurd hw h', id⟩
    rw [← h.mass b, hD b, hw]
    simp
  · rw [if_neg hw]
    have hpc := hp hw
    have hpA : p ∉ A := fun hA => by
      have := (h.canA p hA).level_unique hpc
      omega
    by_cases hv : p ∈ s.visited
    · rw [if_pos hv]
      have hpB := h.visB p hv hpc
      refine ⟨B, { h with mass := fun b => ?_ }, fun _ h' => by rw [h'] at hpB; simp at hpB, id⟩
      simp only
      rw [wsum_update_of_notMem _ _ _ _ _ hpA, wsum_update_of_mem _ _ _ _ _ hpB h.nodupB,
        ← h.mass b, hD b]
      ring
    · rw [if_neg hv]
      have hpB : p ∉ B := fun hB => hv (h.seen p (List.mem_append_right _ hB))
      refine ⟨B ++ [p], ⟨?_, h.nodupA, ?_, h.canA, ?_, ?_, ?_, ?_, fun b => ?_⟩,
        fun _ => by simp, fun _ => by simp⟩
      · simp only; rw [h.queue, List.append_assoc]
      · rw [List.nodup_append]
        refine ⟨h.nodupB, by simp, ?_⟩
        rintro a ha b hb rfl
        rw [List.mem_singleton] at hb
        exact hpB (hb ▸ ha)
      · intro q hq
        rcases List.mem_append.1 hq with hq | hq
        · exact h.canB q hq
        · rw [List.mem_singleton] at hq; rw [hq]; exact hpc
      · intro q hq
        simp only
        rw [← List.append_assoc] at hq
        rcases List.mem_append.1 hq with hq | hq
        · exact List.mem_cons_of_mem _ (h.seen q hq)
        · rw [List.mem_singleton] at hq; rw [hq]; exact List.mem_cons_self
      · intro q hq
        rcases List.mem_cons.1 hq with rfl | hq
        · exact ⟨L, le_rfl, hpc⟩
        · exact h.level q hq
      · intro q hq hqc
        rcases List.mem_cons.1 hq with rfl | hq
        · simp
        · exact List.mem_append_left _ (h.visB q hq hqc)
      · simp only
        rw [wsum_append, wsum_update_of_notMem _ _ _ _ _ hpA,
          wsum_update_of_notMem _ _ _ _ _ hpB, wsum_cons, Function.update_self,
          ← h.mass b, hD b]
        unfold wsum
        simp
        ring

theorem Bfs.run_spec {idx : ℕ} {M : Bool → ℝ} (k : ℕ) (s : Bfs)
    (hk : (s.queue.map Node.size).sum = k) (L : ℕ) (A B : List VNode)
    (h : s.Inv idx M L A B (fun _ => 0)) (hA : A ≠ [])
    (hL : idx < L ∨ (L = idx ∧ B = [])) :
    ∃ s', Bfs.run idx s = some s' ∧ (∀ p ∈ s'.queue, VCan (idx + 1) p) ∧
      ∀ b, wsum s'.prob (fun p => MQT.DD.mass (idx + 1) idx b p (fun _ => false)) s'.queue = M b := by
  induction k using Nat.strong_induction_on generalizing s L A B with
  | _ k IH =>
    cases A with
    | nil => exact absurd rfl hA
    | cons a A' =>
      have hac := h.canA a List.mem_cons_self
      obtain ⟨w, c, rfl, ht, hc⟩ := hac.cases
      have hq : s.queue = .node L w c :: (A' ++ B) := by rw [h.queue]; rfl
      rw [Bfs.run]
      split
      · rename_i h1; rw [hq] at h1; cases h1
      · rename_i h1; rw [hq] at h1; cases h1
      · rename_i v w' c' rest h1
        rw [hq] at h1
        injection h1 with h1 h2
        injection h1 with h1 h3 h4
        subst h1 h2 h3 h4
        by_cases hidx : L = idx
        · rw [if_pos hidx]
          have hB : B = [] := by
            rcases hL with hL | hL
            · omega
            · exact hL.2
          subst hidx hB
          refine ⟨s, rfl, fun p hp => ?_, fun b => ?_⟩
          · rw [h.queue, List.append_nil] at hp
            exact h.canA p hp
          · rw [← h.mass b, h.queue, List.append_nil]
            simp [wsum]
        · rw [if_neg hidx]
          have hlt : idx < L := hL.resolve_right (fun h' => hidx h'.1)
          set pr := s.prob (.node L w c) with hpr
          have hbase : ∀ b d, w d ≠ 0 →
              MQT.DD.mass L idx b (c d) (update (fun _ => false) L d)
                = MQT.DD.mass L idx b (c d) (fun _ => false) :=
            fun b d hd => mass_base hlt b ((hc d).2 hd) _ _
          have hterm : ∀ b d, normSq (w d) * MQT.DD.mass L idx b (c d) (update (fun _ => false) L d)
              = normSq (w d) * MQT.DD.mass L idx b (c d) (fun _ => false) := by
            intro b d
            by_cases hd : w d = 0
            · rw [hd]; simp
            · rw [hbase b d hd]
          have hnd := h.nodupA
          rw [List.nodup_cons] at hnd
          have h0 : Bfs.Inv idx M L A' B (fun b => pr * normSq (w true)
              * MQT.DD.mass L idx b (c true) (fun _ => false) + pr * normSq (w false)
              * MQT.DD.mass L idx b (c false) (fun _ => false)) { s with queue := A' ++ B } := by
            refine ⟨rfl, hnd.2, h.nodupB, fun p hp => h.canA p (List.mem_cons_of_mem _ hp), h.canB,
              fun p hp => h.seen p (List.mem_cons_of_mem _ hp), h.level, h.visB, fun b => ?_⟩
            have := h.mass b
            rw [wsum_cons, mass_succ, hterm, hterm] at this
            simp only
            rw [← this, ← hpr]
            ring
          obtain ⟨B1, h1, n1, m1⟩ := h0.visit pr (w false) (c false) (hc false).2
            (fun b => pr * normSq (w true) * MQT.DD.mass L idx b (c true) (fun _ => false))
            (fun b => rfl)
          obtain ⟨B2, h2, n2, m2⟩ := h1.visit pr (w true) (c true) (hc true).2 (fun _ => 0)
            (fun b => by simp)
          have hB2 : B2 ≠ [] := by
            by_cases hf : w false = 0
            · apply n2
              intro ht'
              have := vtop_normSq w
              rw [ht, hf, ht'] at this
              simp at this
            · exact m2 (n1 hf)
          have hsize : (((({ s with queue := A' ++ B } : Bfs).visit pr (w false) (c false)).visit pr
              (w true) (c true)).queue.map Node.size).sum < k := by
            rw [← hk, hq]
            refine lt_of_le_of_lt (Bfs.visit_size _ _ _ _) ?_
            refine lt_of_le_of_lt (Nat.add_le_add_right (Bfs.visit_size _ _ _ _) _) ?_
            simp [Node.size]
            omega
          by_cases hA' : A' = []
          · -- next level
            obtain ⟨L', rfl⟩ : ∃ L', L = L' + 1 := ⟨L - 1, by omega⟩
            refine IH _ hsize _ rfl L' B2 [] ?_ hB2 ?_
            · refine ⟨by rw [h2.queue, hA']; simp, h2.nodupB, List.nodup_nil, h2.canB, by simp, ?_,
                ?_, ?_, ?_⟩
              · intro p hp
                rw [List.append_nil] at hp
                exact h2.seen p (List.mem_append_right _ hp)
              · intro p hp
                obtain ⟨k', hk1, hk2⟩ := h2.level p hp
                exact ⟨k', by omega, hk2⟩
              · intro p hp hpc
                obtain ⟨k', hk1, hk2⟩ := h2.level p hp
                have := hk2.level_unique hpc
                omega
              · intro b
                rw [← h2.mass b, hA']
                simp [wsum]
            · by_cases he : L' = idx
              · exact Or.inr ⟨he, rfl⟩
              · exact Or.inl (by omega)
          · exact IH _ hsize _ rfl L A' B2 h2 hA' (Or.inl hlt)

theorem sumProbs_spec {idx : ℕ} (prob : VNode → ℝ) (l : List VNode)
    (h : ∀ p ∈ l, VCan (idx + 1) p) :
    sumProbs prob l = some
      (wsum prob (fun p => mass (idx + 1) idx false p (fun _ => false)) l,
        wsum prob (fun p => mass (idx + 1) idx true p (fun _ => false)) l) := by
  induction l with
  | nil => simp [sumProbs, wsum]
  | cons p l ih =>
    have hp := h p List.mem_cons_self
    obtain ⟨w, c, rfl, _, _⟩ := hp.cases
    rw [sumProbs, ih (fun q hq => h q (List.mem_cons_of_mem _ hq)), wsum_cons, wsum_cons,
      mass_top false hp, mass_top true hp]
    simp only [Option.map_some, Option.some.injEq, Prod.mk.injEq]
    constructor
    · by_cases h0 : w false = 0
      · simp [h0]
      · rw [if_neg h0]; ring
    · by_cases h0 : w true = 0
      · simp [h0]
      · rw [if_neg h0]; ring

/-- The probability of outcome `b` on qubit `idx`. -/
def bornOne (n idx : ℕ) (b : Bool) (e : VEdge) : ℝ :=
  sumB n (fun z => if z idx = b then normSq (e.vec z) else 0) (fun _ => false)

theorem bornOne_eq (n idx : ℕ) (b : Bool) (e : VEdge) :
    bornOne n idx b e = normSq e.w * mass n idx b e.p (fun _ => false) := by
  unfold bornOne mass
  rw [← sumB_mul_left']
  congr 1
  funext z
  unfold Edge.vec
  rw [map_mul]
  split_ifs <;> simp

theorem determine_spec {n idx : ℕ} {e : VEdge} (he : VECan n e) (h0 : e.w ≠ 0) (hi : idx < n) :
    determineMeasurementProbabilities e idx
      = some (bornOne n idx false e, bornOne n idx true e) := by
  obtain ⟨L, rfl⟩ : ∃ L, n = L + 1 := ⟨n - 1, by omega⟩
  have hc := he.2 h0
  have hinv : Bfs.Inv idx (fun b => normSq e.w * mass (L + 1) idx b e.p (fun _ => false)) L [e.p] []
      (fun _ => 0) ⟨update (fun _ => 0) e.p (normSq e.w), [e.p], [e.p]⟩ := by
    refine ⟨rfl, by simp, List.nodup_nil, ?_, by simp, by simp, ?_, ?_, fun b => ?_⟩
    · intro p hp; rw [List.mem_singleton] at hp; rw [hp]; exact hc
    · intro p hp; rw [List.mem_singleton] at hp; rw [hp]; exact ⟨L + 1, by omega, hc⟩
    · intro p hp hpc
      rw [List.mem_singleton] at hp
      rw [hp] at hpc
      have := hc.level_unique hpc
      omega
    · simp [wsum]
  obtain ⟨s', h1, h2, h3⟩ := Bfs.run_spec _ _ rfl L [e.p] [] hinv (by simp)
    (by by_cases h : L = idx
        · exact Or.inr ⟨h, rfl⟩
        · exact Or.inl (by omega))
  unfold determineMeasurementProbabilities
  rw [h1, Option.bind_some, sumProbs_spec _ _ h2, h3, h3, bornOne_eq, bornOne_eq]

theorem born_sum {n idx : ℕ} {e : VEdge} (he : VECan n e) :
    bornOne n idx false e + bornOne n idx true e = normSq e.w := by
  unfold bornOne
  rw [← sumB_add]
  have : ∀ z : Bits, ((if z idx = false then normSq (e.vec z) else 0)
      + if z idx = true then normSq (e.vec z) else 0) = normSq e.w * normSq (vval e.p z) := by
    intro z
    unfold Edge.vec
    rw [map_mul]
    cases z idx <;> simp
  simp only [this]
  rw [sumB_mul_left']
  by_cases h0 : e.w = 0
  · rw [h0]; simp
  · rw [(he.2 h0).total, mul_one]

/-! ### Collapse -/

theorem collapse_spec {nq n idx : ℕ} {e : VEdge} (he : VECan n e) (hi : idx < n) (hq : n ≤ nq)
    {pr : ℝ} (hpr : 0 < pr) (b : Bool) :
    ∃ r, collapse nq e idx pr b = .ok r ∧ VECan n r ∧
      ∀ z, r.vec z = if z idx = b then e.vec z / ((√pr : ℝ) : ℂ) else 0 := by
  obtain ⟨g, h1, h2, h3⟩ := makeGateDD_rep n (measMat b) [] idx List.Pairwise.nil (by simp) hi
    (by simp)
  have hg : makeGateDD nq (measMat b) [] idx = some g := by
    rw [← h1]
    unfold makeGateDD
    have a1 : ¬ (([] : List MQT.IR.Ctrl).any (fun c => decide (c.1 > nq - 1)) = true
        ∨ idx > nq - 1) := by simp; omega
    have a2 : ¬ (([] : List MQT.IR.Ctrl).any (fun c => decide (c.1 > n - 1)) = true
        ∨ idx > n - 1) := by simp; omega
    rw [if_neg a1, if_neg a2]
  obtain ⟨r, h4, h5, h6⟩ := mvmul_spec (n := n) h2.ok he.ok
  have hs : ((√pr : ℝ) : ℂ) ≠ 0 := by exact_mod_cast (Real.sqrt_pos.2 hpr).ne'
  unfold collapse
  simp only [hg, h4]
  refine ⟨_, rfl, ⟨fun h => h5.1 ((div_eq_zero_iff.1 h).resolve_right hs), fun h => h5.2 (fun h' =>
    h (by show r.w / _ = 0; rw [h', zero_div]))⟩, fun z => ?_⟩
  have e0 : (⟨r.p, r.w / ((√pr : ℝ) : ℂ)⟩ : VEdge).vec z = r.vec z / ((√pr : ℝ) : ℂ) := by
    simp only [Edge.vec]; ring
  have e1 : ∀ y, g.mat n z y * e.vec y
      = if AgreeOff {idx} n z y then measMat b (z idx) (y idx) * e.vec y else 0 := by
    intro y
    rw [h3.val, if_pos (show SatL [] z from fun c hc => by simp at hc)]
    split_ifs <;> simp
  rw [e0, h6]
  unfold matVec
  simp only [e1]
  rw [sumB_agree1 n idx hi]
  simp only [Function.update_self, Fintype.sum_bool, measMat]
  by_cases hz : z idx = b
  · rw [if_pos hz]
    have hup : update z idx b = z := by rw [← hz, Function.update_eq_self]
    cases b
    · simp [hz, hup]
    · simp [hz, hup]
  · rw [if_neg hz]
    simp [hz]

/-! ### Measuring all qubits -/

/-- The probability of 0 on level `i` on the path selected by `s`. -/
def p0At : VNode → Bits → ℕ → ℝ
  | .term, _, _ => 0
  | .node v w c, s, i => if v = i then normSq (w false) else p0At (c (s v)) s i

/-- The numbers that lead to the outcome of `s` on level `i`. -/
def interval (p : VNode) (s : Bits) (i : ℕ) : Set ℝ :=
  if s i then Set.Ico (p0At p s i) 1 else Set.Ico 0 (p0At p s i)

theorem measureLoop_spec {eps : ℝ} (heps : 0 ≤ eps) {draw : ℕ → ℝ} (n : ℕ) (p : VNode)
    (hp : VCan n p) (hd : ∀ i < n, draw i ∈ Set.Ico (0 : ℝ) 1) (r : Bits)
    (hr : ∀ q < n, r q = false) :
    ∃ r', measureLoop eps draw n p r = .ok r' ∧ (∀ q, n ≤ q → r' q = r q) ∧
      ∀ s, (∀ q < n, r' q = s q) ↔ ∀ i < n, draw i ∈ interval p s i := by
  induction n generalizing p r with
  | zero => exact ⟨r, rfl, fun _ _ => rfl, fun s => by simp⟩
  | succ n ih =>
    obtain ⟨w, c, rfl, h2, h3⟩ := hp.cases
    have hsum : normSq (w false) + normSq (w true) = 1 := by rw [← vtop_normSq, h2, map_one]
    have hdn := hd n (Nat.lt_succ_self n)
    rw [measureLoop, if_neg (by rw [hsum]; simpa using heps), hsum, div_one]
    have hiv : ∀ (s : Bits) (d : Bool), s n = d → ∀ i < n,
        interval (.node n w c) s i = interval (c d) s i := by
      intro s d hs i hi
      have e1 : p0At (.node n w c) s i = p0At (c d) s i := by
        rw [p0At, if_neg (by omega), hs]
      unfold interval
      rw [e1]
    have hin : ∀ s : Bits, interval (.node n w c) s n
        = if s n then Set.Ico (normSq (w false)) 1 else Set.Ico 0 (normSq (w false)) := by
      intro s
      unfold interval
      rw [p0At, if_pos rfl]
    by_cases hlt : draw n < normSq (w false)
    · rw [if_pos hlt]
      have hw : w false ≠ 0 := by
        intro h
        rw [h, map_zero] at hlt
        exact absurd hdn.1 (not_le.2 hlt)
      obtain ⟨r', a1, a2, a3⟩ := ih (c false) ((h3 false).2 hw) (fun i hi => hd i (by omega)) r
        (fun q hq => hr q (by omega))
      refine ⟨r', a1, fun q hq => a2 q (by omega), fun s => ?_⟩
      have hrn : r' n = false := by rw [a2 n le_rfl, hr n (by omega)]
      constructor
      · intro h i hi
        have hsn : s n = false := by rw [← h n (by omega), hrn]
        rcases Nat.lt_succ_iff_lt_or_eq.1 hi with hi' | rfl
        · rw [hiv s false hsn i hi']
          exact (a3 s).1 (fun q hq => h q (by omega)) i hi'
        · rw [hin, hsn]
          exact ⟨hdn.1, hlt⟩
      · intro h
        have hsn : s n = false := by
          by_contra hs
          have := h n (Nat.lt_succ_self n)
          rw [hin, if_pos (by simpa using hs)] at this
          exact absurd hlt (not_lt.2 this.1)
        intro q hq
        rcases Nat.lt_succ_iff_lt_or_eq.1 hq with hq' | rfl
        · refine (a3 s).2 (fun i hi => ?_) q hq'
          rw [← hiv s false hsn i hi]
          exact h i (by omega)
        · rw [hrn, hsn]
    · rw [if_neg hlt]
      have hw : w true ≠ 0 := by
        intro h
        rw [h, map_zero, add_zero] at hsum
        rw [hsum] at hlt
        exact hlt hdn.2
      obtain ⟨r', a1, a2, a3⟩ := ih (c true) ((h3 true).2 hw) (fun i hi => hd i (by omega))
        (update r n true)
        (fun q hq => by rw [Function.update_of_ne (by omega)]; exact hr q (by omega))
      refine ⟨r', a1, fun q hq => by rw [a2 q (by omega), Function.update_of_ne (by omega)],
        fun s => ?_⟩
      have hrn : r' n = true := by rw [a2 n le_rfl, Function.update_self]
      constructor
      · intro h i hi
        have hsn : s n = true := by rw [← h n (by omega), hrn]
        rcases Nat.lt_succ_iff_lt_or_eq.1 hi with hi' | rfl
        · rw [hiv s true hsn i hi']
          exact (a3 s).1 (fun q hq => h q (by omega)) i hi'
        · rw [hin, hsn]
          exact ⟨not_lt.1 hlt, hdn.2⟩
      · intro h
        have hsn : s n = true := by
          by_contra hs
          have := h n (Nat.lt_succ_self n)
          rw [hin, if_neg hs] at this
          exact hlt this.2
        intro q hq
        rcases Nat.lt_succ_iff_lt_or_eq.1 hq with hq' | rfl
        · refine (a3 s).2 (fun i hi => ?_) q hq'
          rw [← hiv s true hsn i hi]
          exact h i (by omega)
        · rw [hrn, hsn]

/-- The length of `interval`. -/
def ilen (p : VNode) (s : Bits) (i : ℕ) : ℝ := if s i then 1 - p0At p s i else p0At p s i

theorem p0At_mem {n : ℕ} {p : VNode} (hp : VCan n p) (s : Bits) (i : ℕ) :
    0 ≤ p0At p s i ∧ p0At p s i ≤ 1 := by
  induction p generalizing n with
  | term => exact ⟨le_rfl, zero_le_one⟩
  | node v w c ih =>
    obtain ⟨rfl, h2, h3⟩ := hp
    rw [p0At]
    split_ifs
    · have hsum : normSq (w false) + normSq (w true) = 1 := by rw [← vtop_normSq, h2, map_one]
      have := Complex.normSq_nonneg (w true)
      exact ⟨Complex.normSq_nonneg _, by linarith⟩
    · by_cases h0 : w (s v) = 0
      · rw [(h3 _).1 h0]; exact ⟨le_rfl, zero_le_one⟩
      · exact ih _ ((h3 _).2 h0)

theorem prod_ilen {n : ℕ} {p : VNode} (hp : VCan n p) (s : Bits) :
    ∏ i ∈ Finset.range n, ilen p s i = normSq (vval p s) := by
  induction n generalizing p with
  | zero => rw [hp.zero_cases]; simp [vval]
  | succ n ih =>
    obtain ⟨w, c, rfl, h2, h3⟩ := hp.cases
    have hsum : normSq (w false) + normSq (w true) = 1 := by rw [← vtop_normSq, h2, map_one]
    have hn : ilen (.node n w c) s n = normSq (w (s n)) := by
      unfold ilen
      rw [p0At, if_pos rfl]
      cases s n
      · simp
      · simp only [if_true]; linarith
    rw [Finset.prod_range_succ, hn, vval, map_mul]
    by_cases h0 : w (s n) = 0
    · rw [h0]; simp
    · rw [← ih ((h3 _).2 h0), mul_comm]
      congr 1
      apply Finset.prod_congr rfl
      intro i hi
      have : i < n := Finset.mem_range.1 hi
      have e1 : p0At (.node n w c) s i = p0At (c (s n)) s i := by
        rw [p0At, if_neg (by omega)]
      unfold ilen
      rw [e1]

theorem collapsed_spec (n : ℕ) (r : Bits) :
    VECan n (collapsed n r) ∧
      ∀ z, (collapsed n r).vec z = if ∀ q < n, z q = r q then 1 else 0 := by
  induction n with
  | zero => exact ⟨⟨fun h => absurd h one_ne_zero, fun _ => rfl⟩, fun z => by
      simp [collapsed, Edge.vec, Edge.one, vval]⟩
  | succ n ih =>
    obtain ⟨h1, h2⟩ := ih
    have e : collapsed (n + 1) r
        = makeVE n (if r n then pair .zero (collapsed n r) else pair (collapsed n r) .zero) := by
      unfold collapsed
      rw [List.range_succ, List.foldl_append]
      rfl
    have e' : collapsed (n + 1) r
        = makeV n (if r n then pair .zero (collapsed n r) else pair (collapsed n r) .zero) := by
      rw [e]
      split_ifs
      · exact makeVE_eq (fun _ => rfl) h1.1
      · exact makeVE_eq h1.1 (fun _ => rfl)
    rw [e']
    refine ⟨makeV_can (fun b => ?_), fun z => ?_⟩
    · split_ifs <;> cases b <;> first | exact h1.ok | exact VOk.zero _
    · rw [makeV_vec]
      have hiff : (∀ q < n + 1, z q = r q) ↔ (∀ q < n, z q = r q) ∧ z n = r n :=
        Nat.forall_lt_succ_right
      simp only [hiff]
      have h0 : (Edge.zero : VEdge).vec z = 0 := by simp [Edge.vec]
      cases hr : r n <;> cases hz : z n <;> simp [pair, h2, h0]

/-! ### `assignProbabilities` -/

/-- The total squared weight below a node. -/
def vtot : VNode → ℝ
  | .term => 1
  | .node _ w c => normSq (w false) * vtot (c false) + normSq (w true) * vtot (c true)

theorem assignProbs_spec (p : VNode) (w : ℂ) (m : VNode → Option ℝ)
    (hm : ∀ q x, m q = some x → x = vtot q) :
    (assignProbs p w m).1 = normSq w * vtot p ∧
      ∀ q x, (assignProbs p w m).2 q = some x → x = vtot q := by
  induction p generalizing w m with
  | term =>
    rw [assignProbs]
    cases h : m .term with
    | some s => exact ⟨by rw [hm _ _ h], hm⟩
    | none =>
      refine ⟨rfl, fun q x hx => ?_⟩
      by_cases hq : q = .term
      · subst hq
        simp only [Function.update_self, Option.some.injEq] at hx
        rw [← hx]; rfl
      · simp only [Function.update_of_ne hq] at hx; exact hm q x hx
  | node v w' c ih =>
    rw [assignProbs]
    cases h : m (.node v w' c) with
    | some s => exact ⟨by rw [hm _ _ h], hm⟩
    | none =>
      simp only
      obtain ⟨a0, b0⟩ := ih false (w' false) m hm
      obtain ⟨a1, b1⟩ := ih true (w' true) _ b0
      refine ⟨by rw [a0, a1, vtot], fun q x hx => ?_⟩
      by_cases hq : q = .node v w' c
      · subst hq
        simp only [Function.update_self, Option.some.injEq] at hx
        rw [← hx, a0, a1, vtot]
      · simp only [Function.update_of_ne hq] at hx; exact b1 q x hx

theorem vtot_can {n : ℕ} {p : VNode} (h : VCan n p) : vtot p = 1 := by
  induction p generalizing n with
  | term => rfl
  | node v w c ih =>
    obtain ⟨rfl, h2, h3⟩ := h
    have hb : ∀ b, normSq (w b) * vtot (c b) = normSq (w b) := by
      intro b
      by_cases h0 : w b = 0
      · rw [h0]; simp
      · rw [ih b ((h3 b).2 h0), mul_one]
    rw [vtot, hb, hb, ← vtop_normSq, h2, map_one]

end MQT.DD

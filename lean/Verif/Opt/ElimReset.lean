/-
`CircuitOptimizer::eliminateResets` (`src/circuit_optimizer/CircuitOptimizer.cpp` 655-754) with
`changeTargets`, `changeControls` (655-681), and the calls of `QuantumComputation::addQubit`
(`src/ir/QuantumComputation.cpp` 498-539) it makes.

The replacement map is modelled as a total function (`pos`, the identity where the map has no
entry) together with a flag that says whether it is non-empty.  `changeControls` replaces controls
one key at a time; since keys are qubits of the original circuit and values are new qubits, this is
the simultaneous replacement used here.  `addQubit(k, k, k)` with `k = getNqubits()` succeeds when
there are no ancillary qubits and the layouts are those of a freshly built circuit (physical qubits
`0 .. k - 1`); with ancillary qubits it throws.  The layouts and registers themselves are not
modelled here.
-/
import Verif.Opt.Op

set_option autoImplicit false
set_option linter.unusedSectionVars false

namespace MQT.Opt

open MQT.IR
open Function (update)

/-- The replacement map, the number of qubits, and (for the statement of the property only) the
qubits that have been given up, in order. -/
structure ResetState where
  pos : ℕ → ℕ
  any : Bool
  next : ℕ
  left : List ℕ

/-- The start for a circuit of `n` qubits. -/
def ResetState.init (n : ℕ) : ResetState := { pos := fun q => q, any := false, next := n, left := [] }

/-- Lines 697-706 / 715-724: a fresh qubit for the reset qubit `q`. -/
def ResetState.push (S : ResetState) (q : ℕ) : ResetState where
  pos := update S.pos q S.next
  any := true
  next := S.next + 1
  left := S.left ++ [S.pos q]

/-- `addQubit` throws when there are ancillary qubits. -/
def newQubit (anc : ℕ) (S : ResetState) (q : ℕ) : Option ResetState :=
  if anc = 0 then some (S.push q) else none

/-- Lines 728-738 / 743-751: `changeTargets` and `changeControls` on an operation that is not a
reset.  A classically controlled operation forwards `getTargets()`; for a compound operation nothing
happens. -/
def rewire {P : Type} (pos : ℕ → ℕ) : Op P → Op P
  | .std o => .std (o.relabel pos)
  | .compound ps cu => .compound ps cu
  | .measure qs cs => .measure (qs.map pos) cs
  | .reset qs => .reset (qs.map pos)
  | .classic p op => .classic p (rewire pos op)

/-- Lines 713-741: one part of a compound operation. -/
def elimPart {P : Type} (anc : ℕ) (S : ResetState) : Op P → Option (ResetState × List (Op P))
  | .reset qs => (qs.foldlM (newQubit anc) S).map fun S' => (S', [])
  | e => some (S, [rewire S.pos e])

/-- Lines 711-742: the loop over the parts of a compound operation. -/
def elimParts {P : Type} (anc : ℕ) : ResetState → List (Op P) → Option (ResetState × List (Op P))
  | S, [] => some (S, [])
  | S, e :: l =>
    (elimPart anc S e).bind fun r => (elimParts anc r.1 l).map fun r' => (r'.1, r.2 ++ r'.2)

/-- Lines 694-752: one operation of the circuit. -/
def elimOp {P : Type} (anc : ℕ) (S : ResetState) : Op P → Option (ResetState × List (Op P))
  | .reset qs => (qs.foldlM (newQubit anc) S).map fun S' => (S', [])
  | .compound ps cu =>
    if S.any then (elimParts anc S ps).map fun r => (r.1, [.compound r.2 cu])
    else some (S, [.compound ps cu])
  | e => if S.any then some (S, [rewire S.pos e]) else some (S, [e])

/-- The loop over the circuit. -/
def elimOps {P : Type} (anc : ℕ) : ResetState → List (Op P) → Option (ResetState × List (Op P))
  | S, [] => some (S, [])
  | S, e :: l =>
    (elimOp anc S e).bind fun r => (elimOps anc r.1 l).map fun r' => (r'.1, r.2 ++ r'.2)

/-- `eliminateResets` on a circuit of `n` qubits, `anc` of them ancillary. -/
def eliminateResets {P : Type} (n anc : ℕ) (ops : List (Op P)) : Option (ResetState × List (Op P)) :=
  elimOps anc (ResetState.init n) ops

/-! ### Random outcomes -/

mutual
/-- The random outcomes an operation uses up, in order: `true` for a reset, `false` for a
measurement. -/
def draws {P : Type} : Op P → List Bool
  | .std _ => []
  | .compound ps _ => drawsL ps
  | .measure qs cs => List.replicate (min qs.length cs.length) false
  | .reset qs => List.replicate qs.length true
  | .classic _ _ => []
def drawsL {P : Type} : List (Op P) → List Bool
  | [] => []
  | e :: l => draws e ++ drawsL l
end

/-- The outcomes of the resets. -/
def resetOuts : List Bool → (ℕ → Bool) → List Bool
  | [], _ => []
  | true :: t, o => o 0 :: resetOuts t fun k => o (k + 1)
  | false :: t, o => resetOuts t fun k => o (k + 1)

/-- The supply of outcomes without those of the resets. -/
def measOrc : List Bool → (ℕ → Bool) → ℕ → Bool
  | [], o => o
  | true :: t, o => measOrc t fun k => o (k + 1)
  | false :: t, o => fun k => match k with
    | 0 => o 0
    | k + 1 => measOrc t (fun k => o (k + 1)) k

/-! ### The relation between the two circuits -/

/-- `y` is `x` on the current places of the `n` qubits, the outcomes of the resets on the qubits
given up, and zero elsewhere. -/
structure Spreads (n : ℕ) (S : ResetState) (rs : List Bool) (x y : Bits) : Prop where
  cur : ∀ q < n, y (S.pos q) = x q
  old : ∀ p ∈ S.left.zip rs, y p.1 = p.2
  new : ∀ p, S.next ≤ p → y p = false
  dom : ∀ q, n ≤ q → x q = false

/-- No amplitude where a qubit from `n` on is one. -/
def Supp (n : ℕ) (ψ : State) : Prop := ∀ y p, n ≤ p → y p = true → ψ y = 0

/-- The places of the qubits and the qubits given up partition the qubits of the new circuit. -/
structure Places (n : ℕ) (S : ResetState) : Prop where
  size : S.next = n + S.left.length
  inj : ∀ q < n, ∀ q' < n, S.pos q = S.pos q' → q = q'
  lt : ∀ q < n, S.pos q < S.next
  notLeft : ∀ q < n, S.pos q ∉ S.left
  nodup : S.left.Nodup
  leftLt : ∀ p ∈ S.left, p < S.next
  cover : ∀ p < S.next, (∃ q < n, S.pos q = p) ∨ p ∈ S.left
  start : S.any = false → S.pos = (fun q => q) ∧ S.left = []

/-- How the amplitudes of the two circuits are related. -/
structure Sim (n : ℕ) (S : ResetState) (rs : List Bool) (ψ ψ' : State) : Prop where
  amp : ∀ x y, Spreads n S rs x y → ψ x = ψ' y
  supp : Supp S.next ψ'
  len : rs.length = S.left.length

theorem Places.init (n : ℕ) : Places n (ResetState.init n) := by
  refine ⟨rfl, fun q _ q' _ h => h, fun q h => h, fun q _ => List.not_mem_nil, List.nodup_nil, ?_,
    fun p hp => Or.inl ⟨p, hp, rfl⟩, fun _ => ⟨rfl, rfl⟩⟩
  intro p h
  cases h

theorem Spreads.update {n : ℕ} {S : ResetState} {rs : List Bool} {x y : Bits} (hS : Places n S)
    (h : Spreads n S rs x y) {q : ℕ} (hq : q < n) (b : Bool) :
    Spreads n S rs (update x q b) (update y (S.pos q) b) := by
  constructor
  · intro q' hq'
    by_cases e : q' = q
    · subst e; simp
    · rw [Function.update_of_ne e, Function.update_of_ne, h.cur q' hq']
      exact fun h' => e (hS.inj q' hq' q hq h')
  · intro p hp
    rw [Function.update_of_ne, h.old p hp]
    rintro e
    exact hS.notLeft q hq (e ▸ (List.of_mem_zip hp).1)
  · intro p hp
    rw [Function.update_of_ne, h.new p hp]
    have := hS.lt q hq
    omega
  · intro q' hq'
    rw [Function.update_of_ne (by omega), h.dom q' hq']

theorem supp_update {m : ℕ} {ψ : State} (h : Supp m ψ) {t : ℕ} (ht : t < m) {y : Bits} {p : ℕ}
    (hp : m ≤ p) (hy : y p = true) (b : Bool) : ψ (Function.update y t b) = 0 :=
  h _ p hp (by rw [Function.update_of_ne (by omega)]; exact hy)

theorem supp_app1 {m t : ℕ} {ψ : State} (h : Supp m ψ) (ht : t < m) (M : Mat1) : Supp m (app1 M t ψ) := by
  intro y p hp hy
  simp only [app1, supp_update h ht hp hy, mul_zero, Finset.sum_const_zero]

theorem supp_app2 {m s t : ℕ} {ψ : State} (h : Supp m ψ) (hs : s < m) (ht : t < m) (M : Mat2) :
    Supp m (app2 M s t ψ) := by
  intro y p hp hy
  simp only [app2]
  refine Finset.sum_eq_zero fun b _ => ?_
  rw [supp_update h ht hp (by rw [Function.update_of_ne (by omega)]; exact hy), mul_zero]

theorem supp_ctl {m : ℕ} {cs : Finset Ctrl} {A : State → State} {ψ : State} (h : Supp m ψ)
    (h' : Supp m (A ψ)) : Supp m (ctl cs A ψ) := by
  intro y p hp hy
  simp only [ctl]
  split_ifs
  · exact h' y p hp hy
  · exact h y p hp hy

variable {n : ℕ} {S : ResetState} {rs : List Bool}

theorem Sim.app1 (hS : Places n S) {ψ ψ' : State} (h : Sim n S rs ψ ψ') {q : ℕ} (hq : q < n) (M : Mat1) :
    Sim n S rs (app1 M q ψ) (app1 M (S.pos q) ψ') := by
  refine ⟨fun x y hxy => ?_, supp_app1 h.supp (hS.lt q hq) M, h.len⟩
  simp only [MQT.IR.app1, hxy.cur q hq]
  exact Finset.sum_congr rfl fun b _ => by rw [h.amp _ _ (hxy.update hS hq b)]

theorem Sim.app2 (hS : Places n S) {ψ ψ' : State} (h : Sim n S rs ψ ψ') {q r : ℕ} (hq : q < n)
    (hr : r < n) (M : Mat2) : Sim n S rs (app2 M q r ψ) (app2 M (S.pos q) (S.pos r) ψ') := by
  refine ⟨fun x y hxy => ?_, supp_app2 h.supp (hS.lt q hq) (hS.lt r hr) M, h.len⟩
  simp only [MQT.IR.app2, hxy.cur q hq, hxy.cur r hr]
  exact Finset.sum_congr rfl fun b _ => by
    rw [h.amp _ _ ((hxy.update hS hq b.1).update hS hr b.2)]

theorem sat_spread {x y : Bits} (hxy : Spreads n S rs x y) {cs : Finset Ctrl}
    (hc : ∀ q ∈ ctrlQubits cs, q < n) : Sat (cs.image fun c => (S.pos c.1, c.2)) y ↔ Sat cs x := by
  simp only [Sat, Finset.mem_image, forall_exists_index, and_imp]
  constructor
  · intro h c hc'
    rw [← hxy.cur c.1 (hc _ (Finset.mem_image_of_mem _ hc'))]
    exact h _ c hc' rfl
  · rintro h _ c hc' rfl
    rw [hxy.cur c.1 (hc _ (Finset.mem_image_of_mem _ hc'))]
    exact h c hc'

theorem Sim.ctl {ψ ψ' : State} {A A' : State → State} {cs : Finset Ctrl}
    (hc : ∀ q ∈ ctrlQubits cs, q < n) (h : Sim n S rs ψ ψ') (h' : Sim n S rs (A ψ) (A' ψ')) :
    Sim n S rs (ctl cs A ψ) (ctl (cs.image fun c => (S.pos c.1, c.2)) A' ψ') := by
  refine ⟨fun x y hxy => ?_, supp_ctl h.supp h'.supp, h.len⟩
  simp only [MQT.IR.ctl, sat_spread hxy hc, h.amp _ _ hxy, h'.amp _ _ hxy]

/-- A gate and its rewired version. -/
theorem Sim.std (hS : Places n S) {o : StdOp ℝ} {f : State → State} (hf : o.denote = some f)
    (hu : ∀ q ∈ o.used, q < n) :
    ∃ g, (o.relabel S.pos).denote = some g ∧ ∀ ψ ψ', Sim n S rs ψ ψ' → Sim n S rs (f ψ) (g ψ') := by
  have hc : ∀ q ∈ ctrlQubits o.controls, q < n := fun q hq => hu q (Finset.mem_union_right _ hq)
  rcases StdOp.denote_cases hf with ⟨hb, rfl⟩ | ⟨hg, θ, e1, rfl⟩ | ⟨hs, q, M, e1, e2, rfl⟩ |
    ⟨h2, q0, q1, M, e1, e2, rfl⟩
  · exact ⟨_, StdOp.denote_barrier (o := o.relabel S.pos) hb, fun ψ ψ' h => h⟩
  · refine ⟨MQT.IR.ctl (o.relabel S.pos).controls (phase ⟨Real.cos θ, Real.sin θ⟩), ?_, ?_⟩
    · rw [StdOp.denote_gphase (o := o.relabel S.pos) hg]
      simp only [StdOp.relabel, e1]
      rfl
    · intro ψ ψ' h
      refine Sim.ctl hc h ⟨fun x y hxy => ?_, ?_, h.len⟩
      · simp only [phase, h.amp x y hxy]
      · intro y p hp hy
        simp only [phase, h.supp y p hp hy, mul_zero]
  · refine ⟨_, StdOp.denote_single_of (o := o.relabel S.pos) (q := S.pos q) (M := M) hs
      (by simp [StdOp.relabel, e1]) e2, ?_⟩
    intro ψ ψ' h
    exact Sim.ctl hc h (h.app1 hS (hu q (Finset.mem_union_left _ (by rw [e1]; simp))) M)
  · refine ⟨_, StdOp.denote_two_of (o := o.relabel S.pos) (q0 := S.pos q0) (q1 := S.pos q1) (M := M) h2
      (by simp [StdOp.relabel, e1]) e2, ?_⟩
    intro ψ ψ' h
    exact Sim.ctl hc h (h.app2 hS (hu q0 (Finset.mem_union_left _ (by rw [e1]; simp)))
      (hu q1 (Finset.mem_union_left _ (by rw [e1]; simp))) M)

/-! ### A fresh qubit -/

theorem Places.push (hS : Places n S) {q : ℕ} (hq : q < n) :
    Places n (S.push q) := by
  have key : ∀ q' < n, Function.update S.pos q S.next q' = S.next ∧ q' = q ∨
      Function.update S.pos q S.next q' = S.pos q' ∧ q' ≠ q := by
    intro q' hq'
    by_cases e : q' = q
    · subst e; left; simp
    · right; exact ⟨Function.update_of_ne e _ _, e⟩
  refine ⟨?_, ?_, ?_, ?_, ?_, ?_, ?_, fun h => by cases h⟩
  · simp only [ResetState.push, List.length_append, List.length_singleton, hS.size]; omega
  · intro a ha b hb h
    have la := hS.lt a ha
    have lb := hS.lt b hb
    simp only [ResetState.push] at h
    rcases key a ha with ⟨e1, e2⟩ | ⟨e1, e2⟩ <;> rcases key b hb with ⟨e3, e4⟩ | ⟨e3, e4⟩ <;>
      rw [e1, e3] at h
    · rw [e2, e4]
    · omega
    · omega
    · exact hS.inj a ha b hb h
  · intro a ha
    have la := hS.lt a ha
    simp only [ResetState.push]
    rcases key a ha with ⟨e1, -⟩ | ⟨e1, -⟩ <;> rw [e1] <;> omega
  · intro a ha
    simp only [ResetState.push, List.mem_append, List.mem_singleton, not_or]
    rcases key a ha with ⟨e1, e2⟩ | ⟨e1, e2⟩ <;> rw [e1]
    · refine ⟨fun h => absurd (hS.leftLt _ h) (by omega), ?_⟩
      have := hS.lt q hq
      omega
    · exact ⟨hS.notLeft a ha, fun h => e2 (hS.inj a ha q hq h)⟩
  · simp only [ResetState.push, List.nodup_append, hS.nodup, List.nodup_cons, List.not_mem_nil, not_false_eq_true,
      List.nodup_nil, and_self, true_and, List.mem_singleton]
    rintro a ha b rfl rfl
    exact hS.notLeft q hq ha
  · intro p hp
    simp only [ResetState.push, List.mem_append, List.mem_singleton] at hp ⊢
    rcases hp with hp | rfl
    · have := hS.leftLt p hp; omega
    · have := hS.lt q hq; omega
  · intro p hp
    simp only [ResetState.push, List.mem_append, List.mem_singleton] at hp ⊢
    rcases Nat.lt_or_ge p S.next with hlt | hge
    · rcases hS.cover p hlt with ⟨a, ha, rfl⟩ | hp'
      · by_cases e : a = q
        · subst e; exact Or.inr (Or.inr rfl)
        · exact Or.inl ⟨a, ha, Function.update_of_ne e _ _⟩
      · exact Or.inr (Or.inl hp')
    · have : p = S.next := by omega
      subst this
      exact Or.inl ⟨q, hq, by simp⟩

theorem reset_amp (q : ℕ) (r : Bool) (ψ : State) (x : Bits) :
    (if r then MQT.IR.app1 flipM q (MQT.IR.app1 (projM true) q ψ) else MQT.IR.app1 (projM false) q ψ) x =
      if x q = false then ψ (Function.update x q r) else 0 := by
  cases r <;> cases hx : x q <;> simp [MQT.IR.app1, flipM, projM, hx]

/-- Resetting a qubit with outcome `r` corresponds to using a fresh qubit instead. -/
theorem Sim.push {ψ ψ' : State} (h : Sim n S rs ψ ψ') {q : ℕ} (hq : q < n)
    (r : Bool) : Sim n (S.push q) (rs ++ [r])
      (if r then MQT.IR.app1 flipM q (MQT.IR.app1 (projM true) q ψ) else MQT.IR.app1 (projM false) q ψ) ψ' := by
  refine ⟨fun x y hxy => ?_, ?_, by simp [ResetState.push, h.len]⟩
  · rw [reset_amp]
    have hcur := hxy.cur
    have hold := hxy.old
    simp only [ResetState.push] at hcur hold
    rw [List.zip_append h.len.symm] at hold
    have hnew : y S.next = x q := by simpa using hcur q hq
    split_ifs with hx
    · refine h.amp _ _ ⟨?_, ?_, ?_, ?_⟩
      · intro a ha
        by_cases e : a = q
        · subst e
          rw [Function.update_self]
          exact hold (S.pos a, r) (by simp)
        · rw [Function.update_of_ne e, ← hcur a ha, Function.update_of_ne e]
      · intro p hp
        exact hold p (List.mem_append_left _ hp)
      · intro p hp
        rcases Nat.lt_or_ge S.next p with hlt | hge
        · exact hxy.new p hlt
        · have : p = S.next := by omega
          subst this; rw [hnew, hx]
      · intro a ha
        rw [Function.update_of_ne (by omega), hxy.dom a ha]
    · refine (h.supp y S.next (le_refl _) ?_).symm
      rw [hnew]; simpa using hx
  · intro y p hp hy
    simp only [ResetState.push] at hp
    exact h.supp y p (by omega) hy

/-! ### Executing both circuits side by side -/

/-- The two configurations agree in memory and amplitudes. -/
structure Twin (n : ℕ) (S : ResetState) (rs : List Bool) (c c' : Cfg) : Prop where
  mem : c'.mem = c.mem
  sim : Sim n S rs c.st c'.st

theorem resetOuts_append (t t' : List Bool) (o : ℕ → Bool) :
    resetOuts (t ++ t') o = resetOuts t o ++ resetOuts t' fun k => o (k + t.length) := by
  induction t generalizing o with
  | nil => rfl
  | cons b t ih => cases b <;> simp [resetOuts, ih, Nat.add_assoc]

theorem resetOuts_false (m : ℕ) (o : ℕ → Bool) : resetOuts (List.replicate m false) o = [] := by
  induction m generalizing o with
  | zero => rfl
  | succ m ih => rw [List.replicate_succ, resetOuts, ih]

theorem measOrc_false_zero (t : List Bool) (o : ℕ → Bool) : measOrc (false :: t) o 0 = o 0 := rfl

theorem measOrc_false_succ (t : List Bool) (o : ℕ → Bool) :
    (fun k => measOrc (false :: t) o (k + 1)) = measOrc t fun k => o (k + 1) := rfl

/-- Executing `l` and executing `l'` keep the configurations related; `t` lists the outcomes `l`
uses up. -/
structure Match (n : ℕ) (S S' : ResetState) (t : List Bool) (l l' : List (Op ℝ)) : Prop where
  places : Places n S'
  sim : ∀ t' rs c c', Twin n S rs c c' → c'.orc = measOrc (t ++ t') c.orc →
    ∃ d d', run l c = some d ∧ run l' c' = some d' ∧ Twin n S' (rs ++ resetOuts t c.orc) d d' ∧
      d'.orc = measOrc t' d.orc ∧ d.orc = fun k => c.orc (k + t.length)

theorem Match.nil (hS : Places n S) : Match n S S [] [] [] := by
  refine ⟨hS, fun t' rs c c' h ho => ⟨c, c', run_nil c, run_nil c', ?_, ho, rfl⟩⟩
  simpa [resetOuts] using h

theorem Match.append {S S1 S2 : ResetState} {t1 t2 : List Bool} {a a' b b' : List (Op ℝ)}
    (h1 : Match n S S1 t1 a a') (h2 : Match n S1 S2 t2 b b') :
    Match n S S2 (t1 ++ t2) (a ++ b) (a' ++ b') := by
  refine ⟨h2.places, fun t' rs c c' h ho => ?_⟩
  rw [List.append_assoc] at ho
  obtain ⟨d, d', r1, r2, tw, o1, o2⟩ := h1.sim (t2 ++ t') rs c c' h ho
  obtain ⟨e, e', r3, r4, tw', o3, o4⟩ := h2.sim t' _ d d' tw o1
  refine ⟨e, e', ?_, ?_, ?_, o3, ?_⟩
  · rw [run_append, r1, Option.bind_some, r3]
  · rw [run_append, r2, Option.bind_some, r4]
  · rw [resetOuts_append, ← List.append_assoc]
    rw [o2] at tw'
    exact tw'
  · rw [o4, o2]
    funext k
    simp only [List.length_append]
    congr 1; omega

theorem Match.std (hS : Places n S) {o : StdOp ℝ} (hv : (Op.std o).Valid) (hu : ∀ q ∈ o.used, q < n) :
    Match n S S [] [.std o] [.std (o.relabel S.pos)] := by
  rw [Op.Valid] at hv
  obtain ⟨-, f, hf⟩ := hv
  refine ⟨hS, fun t' rs c c' h ho => ?_⟩
  obtain ⟨g, hg, hfg⟩ := Sim.std (rs := rs) hS hf hu
  refine ⟨c.mapSt f, c'.mapSt g, ?_, ?_, ?_, ho, rfl⟩
  · rw [run_singleton, exec, hf]; rfl
  · rw [run_singleton, exec, hg]; rfl
  · rw [resetOuts, List.append_nil]
    exact ⟨h.mem, hfg _ _ h.sim⟩

theorem Match.classic (hS : Places n S) {p : (ℕ → Bool) → Bool} {o : StdOp ℝ} (hv : (Op.std o).Valid)
    (hu : ∀ q ∈ o.used, q < n) :
    Match n S S [] [.classic p (.std o)] [.classic p (.std (o.relabel S.pos))] := by
  refine ⟨hS, fun t' rs c c' h ho => ?_⟩
  obtain ⟨d, d', r1, r2, tw, o1, o2⟩ := (Match.std hS hv hu).sim t' rs c c' h ho
  by_cases hp : p c.mem = true
  · refine ⟨d, d', ?_, ?_, tw, o1, o2⟩
    · rw [run_singleton, exec, if_pos hp, ← run_singleton]; exact r1
    · rw [run_singleton, exec, h.mem, if_pos hp, ← run_singleton]; exact r2
  · refine ⟨c, c', ?_, ?_, ?_, ho, rfl⟩
    · rw [run_singleton, exec, if_neg hp]
    · rw [run_singleton, exec, h.mem, if_neg hp]
    · rw [resetOuts, List.append_nil]; exact h

theorem measure_fold (hS : Places n S) (z : List (ℕ × ℕ)) (hz : ∀ p ∈ z, p.1 < n) (t' : List Bool)
    (c c' : Cfg) (h : Twin n S rs c c') (ho : c'.orc = measOrc (List.replicate z.length false ++ t') c.orc) :
    Twin n S rs (z.foldl (fun c p => measure1 p.1 p.2 c) c)
      ((z.map fun p => (S.pos p.1, p.2)).foldl (fun c p => measure1 p.1 p.2 c) c') ∧
    ((z.map fun p => (S.pos p.1, p.2)).foldl (fun c p => measure1 p.1 p.2 c) c').orc =
      measOrc t' (z.foldl (fun c p => measure1 p.1 p.2 c) c).orc ∧
    (z.foldl (fun c p => measure1 p.1 p.2 c) c).orc = fun k => c.orc (k + z.length) := by
  induction z generalizing c c' with
  | nil => exact ⟨h, ho, rfl⟩
  | cons p z ih =>
    simp only [List.foldl_cons, List.map_cons]
    rw [List.length_cons, List.replicate_succ, List.cons_append] at ho
    have h0 : c'.orc 0 = c.orc 0 := by rw [ho]; rfl
    have := ih (fun p' hp' => hz p' (List.mem_cons_of_mem _ hp')) (measure1 p.1 p.2 c)
      (measure1 (S.pos p.1) p.2 c') ⟨?_, ?_⟩ ?_
    · refine ⟨this.1, this.2.1, this.2.2.trans ?_⟩
      funext k
      simp only [measure1, List.length_cons]
      congr 1
    · simp only [measure1, h.mem, h0]
    · simp only [measure1, h0]
      exact h.sim.app1 hS (hz p (by simp)) _
    · simp only [measure1, ho]
      exact measOrc_false_succ _ _

theorem Match.measure (hS : Places n S) {qs cs : List ℕ} (hu : ∀ q ∈ qs, q < n) :
    Match n S S (List.replicate (min qs.length cs.length) false) [.measure qs cs]
      [.measure (qs.map S.pos) cs] := by
  refine ⟨hS, fun t' rs c c' h ho => ?_⟩
  have hz : ∀ p ∈ qs.zip cs, p.1 < n := fun p hp => hu _ (List.of_mem_zip hp).1
  have hl : (qs.zip cs).length = min qs.length cs.length := List.length_zip
  obtain ⟨a, b, e⟩ := measure_fold hS (qs.zip cs) hz t' c c' h (by rw [hl]; exact ho)
  refine ⟨(qs.zip cs).foldl (fun c p => measure1 p.1 p.2 c) c,
    ((qs.zip cs).map fun p => (S.pos p.1, p.2)).foldl (fun c p => measure1 p.1 p.2 c) c', ?_, ?_, ?_, ?_, ?_⟩
  · rw [run_singleton, exec]
  · rw [run_singleton, exec]
    congr 2
    rw [← List.map_id cs, List.zip_map, List.map_id]
    rfl
  · rw [resetOuts_false, List.append_nil]; exact a
  · exact b
  · rw [e, hl, List.length_replicate]

/-- Replacing a reset by fresh qubits. -/
theorem Match.reset (hS : Places n S) {anc : ℕ} {qs : List ℕ} (hu : ∀ q ∈ qs, q < n) {S' : ResetState}
    (hS' : qs.foldlM (newQubit anc) S = some S') :
    Match n S S' (List.replicate qs.length true) [.reset qs] [] := by
  induction qs generalizing S with
  | nil =>
    injection hS' with hS'
    subst hS'
    refine ⟨hS, fun t' rs c c' h ho => ⟨c, c', ?_, run_nil c', ?_, ho, rfl⟩⟩
    · rw [run_singleton, exec]; rfl
    · simpa [resetOuts] using h
  | cons q qs ih =>
    rw [List.foldlM_cons] at hS'
    have hq := hu q (by simp)
    by_cases ha : anc = 0
    · have e : newQubit anc S q = some (S.push q) := by rw [newQubit, if_pos ha]
      rw [e] at hS'
      have hm := ih (hS.push hq) (fun q' hq' => hu q' (List.mem_cons_of_mem _ hq')) hS'
      refine ⟨hm.places, fun t' rs c c' h ho => ?_⟩
      rw [List.length_cons, List.replicate_succ, List.cons_append] at ho
      obtain ⟨d, d', r1, r2, tw, o1, o2⟩ := hm.sim t' (rs ++ [c.orc 0]) (reset1 q c) c'
        ⟨h.mem, h.sim.push hq (c.orc 0)⟩ ho
      refine ⟨d, d', ?_, r2, ?_, o1, ?_⟩
      · rw [run_singleton, exec] at r1 ⊢
        rw [List.foldl_cons]; exact r1
      · rw [List.length_cons, List.replicate_succ, resetOuts]
        rw [List.append_assoc] at tw
        exact tw
      · rw [o2]
        funext k
        simp only [reset1, List.length_replicate, List.length_cons]
        congr 1
    · have e : newQubit anc S q = none := by rw [newQubit, if_neg ha]
      rw [e] at hS'
      cases hS'

/-! ### The pass -/

/-- The operations the pass rewires correctly: gates, measurements, resets, classically controlled
gates. -/
def Simple {P : Type} : Op P → Prop
  | .std _ => True
  | .measure _ _ => True
  | .reset _ => True
  | .classic _ (.std _) => True
  | _ => False

/-- Those, and compound operations made of them. -/
def Flat {P : Type} : Op P → Prop
  | .compound ps _ => ∀ e ∈ ps, Simple e
  | e => Simple e

/-- A compound operation with a reset inside. -/
def HasReset {P : Type} : Op P → Prop
  | .compound ps _ => ∃ e ∈ ps, e.type = .reset
  | _ => False

/-- No compound operation with a reset inside comes before the first reset at top level. -/
def ResetsSeen {P : Type} : List (Op P) → Prop
  | [] => True
  | .reset (_ :: _) :: _ => True
  | e :: l => ¬ HasReset e ∧ ResetsSeen l

theorem reset_fold_none {qs : List ℕ} {S : ResetState} :
    ∃ S', qs.foldlM (newQubit 0) S = some S' ∧ (S.any = true → S'.any = true) ∧
      (qs ≠ [] → S'.any = true) := by
  induction qs generalizing S with
  | nil => exact ⟨S, rfl, fun h => h, fun h => absurd rfl h⟩
  | cons q qs ih =>
    obtain ⟨S', h1, h2, -⟩ := ih (S := S.push q)
    refine ⟨S', ?_, fun _ => h2 rfl, fun _ => h2 rfl⟩
    rw [List.foldlM_cons]
    exact h1

theorem rewire_id {P : Type} (e : Op P) : rewire (fun q => q) e = e := by
  match e with
  | .std o =>
    rw [rewire, StdOp.relabel]
    simp
  | .compound _ _ => rfl
  | .measure qs cs => rw [rewire]; simp
  | .reset qs => rw [rewire]; simp
  | .classic p op => rw [rewire, rewire_id op]

theorem Match.part (hS : Places n S) {e : Op ℝ} (he : Simple e) (hv : e.Valid)
    (hu : ∀ q ∈ e.acts, q < n) :
    ∃ S' l', elimPart 0 S e = some (S', l') ∧ Match n S S' (draws e) [e] l' ∧
      (∀ o ∈ l', o.type ≠ .reset) ∧ (S.any = true → S'.any = true) := by
  match e with
  | .std o =>
    refine ⟨S, _, rfl, Match.std hS hv hu, ?_, fun h => h⟩
    intro o' ho'
    rw [List.mem_singleton] at ho'
    subst ho'
    rw [rewire, Op.type]
    intro h
    refine absurd hv ?_
    rw [Op.Valid]
    rintro ⟨-, f, hf⟩
    have h : o.type = .reset := h
    rcases StdOp.denote_cases hf with ⟨hb, -⟩ | ⟨hg, -⟩ | ⟨hs, -⟩ | ⟨h2, -⟩
    · rw [h] at hb; cases hb
    · rw [h] at hg; cases hg
    · rw [h] at hs; cases hs
    · rw [h] at h2; cases h2
  | .measure qs cs =>
    rw [Op.acts] at hu
    refine ⟨S, _, rfl, Match.measure hS fun q hq => hu q (List.mem_toFinset.2 hq), ?_, fun h => h⟩
    intro o' ho'
    rw [List.mem_singleton] at ho'
    subst ho'
    rw [rewire, Op.type]
    decide
  | .reset qs =>
    rw [Op.acts] at hu
    obtain ⟨S', h1, h2, -⟩ := reset_fold_none (qs := qs) (S := S)
    refine ⟨S', [], by rw [elimPart, h1]; rfl,
      Match.reset hS (fun q hq => hu q (List.mem_toFinset.2 hq)) h1, fun o ho => (List.not_mem_nil ho).elim, h2⟩
  | .classic p (.std o) =>
    rw [Op.acts, Op.acts] at hu
    rw [Op.Valid] at hv
    refine ⟨S, _, rfl, Match.classic hS hv hu, ?_, fun h => h⟩
    intro o' ho'
    rw [List.mem_singleton] at ho'
    subst ho'
    rw [rewire, Op.type]
    decide

theorem Match.parts (ps : List (Op ℝ)) (hS : Places n S) (he : ∀ e ∈ ps, Simple e) (hv : Op.ValidL ps)
    (hu : ∀ q ∈ Op.actsL ps, q < n) :
    ∃ S' l', elimParts 0 S ps = some (S', l') ∧ Match n S S' (drawsL ps) ps l' ∧
      (∀ o ∈ l', o.type ≠ .reset) ∧ (S.any = true → S'.any = true) := by
  induction ps generalizing S with
  | nil => exact ⟨S, [], rfl, Match.nil hS, fun o ho => (List.not_mem_nil ho).elim, fun h => h⟩
  | cons e ps ih =>
    rw [Op.ValidL] at hv
    rw [Op.actsL] at hu
    obtain ⟨S1, l1, h1, h2, h3, h4⟩ := Match.part hS (he e (by simp)) hv.1
      fun q hq => hu q (Finset.mem_union_left _ hq)
    obtain ⟨S2, l2, g1, g2, g3, g4⟩ := ih h2.places (fun e' he' => he e' (List.mem_cons_of_mem _ he')) hv.2
      fun q hq => hu q (Finset.mem_union_right _ hq)
    refine ⟨S2, l1 ++ l2, ?_, ?_, ?_, fun h => g4 (h4 h)⟩
    · rw [elimParts, h1, Option.bind_some, g1]; rfl
    · rw [drawsL]; exact h2.append g2
    · intro o ho
      exact (List.mem_append.1 ho).elim (h3 o) (g3 o)

/-- No reset is left, neither at top level nor in a compound operation. -/
def NoReset {P : Type} (e : Op P) : Prop := e.type ≠ .reset ∧ ¬ HasReset e

theorem Match.compound {S S' : ResetState} {t : List Bool} {l l' : List (Op ℝ)} {cu cu' : Bool}
    (h : Match n S S' t l l') : Match n S S' t [.compound l cu] [.compound l' cu'] := by
  refine ⟨h.places, ?_⟩
  simp only [run_singleton, run_compound]
  exact h.sim

/-- While the replacement map is empty everything but resets is kept. -/
theorem Match.parts_keep (ps : List (Op ℝ)) (hS : Places n S) (ha : S.any = false)
    (he : ∀ e ∈ ps, Simple e ∧ e.type ≠ .reset) (hv : Op.ValidL ps) (hu : ∀ q ∈ Op.actsL ps, q < n) :
    Match n S S (drawsL ps) ps ps := by
  induction ps with
  | nil => exact Match.nil hS
  | cons e ps ih =>
    rw [Op.ValidL] at hv
    rw [Op.actsL] at hu
    obtain ⟨S1, l1, h1, h2, -, -⟩ := Match.part hS (he e (by simp)).1 hv.1
      fun q hq => hu q (Finset.mem_union_left _ hq)
    have hid : elimPart 0 S e = some (S, [e]) := by
      have hne := (he e (by simp)).2
      match e with
      | .reset qs => exact absurd rfl hne
      | .std o => rw [elimPart, (hS.start ha).1, rewire_id]; intro qs h; cases h
      | .compound _ _ => rw [elimPart, (hS.start ha).1, rewire_id]; intro qs h; cases h
      | .measure _ _ => rw [elimPart, (hS.start ha).1, rewire_id]; intro qs h; cases h
      | .classic _ _ => rw [elimPart, (hS.start ha).1, rewire_id]; intro qs h; cases h
    rw [hid] at h1
    injection h1 with h1
    rw [Prod.mk.injEq] at h1
    obtain ⟨rfl, rfl⟩ := h1
    rw [drawsL]
    exact h2.append (ih (fun e' he' => he e' (List.mem_cons_of_mem _ he')) hv.2
      fun q hq => hu q (Finset.mem_union_right _ hq))

theorem Match.op (hS : Places n S) {e : Op ℝ} (he : Flat e) (hv : e.Valid)
    (hu : ∀ q ∈ e.acts, q < n) (hr : S.any = true ∨ ¬ HasReset e) :
    ∃ S' l', elimOp 0 S e = some (S', l') ∧ Match n S S' (draws e) [e] l' ∧ (∀ o ∈ l', NoReset o) ∧
      (S.any = true → S'.any = true) ∧ ((∃ q qs, e = .reset (q :: qs)) → S'.any = true) := by
  have simple : ∀ e : Op ℝ, Simple e → e.Valid → (∀ q ∈ e.acts, q < n) → (∀ qs, e ≠ .reset qs) →
      (∀ ps cu, e ≠ .compound ps cu) →
      ∃ S' l', (if S.any then some (S, [rewire S.pos e]) else some (S, [e])) = some (S', l') ∧
        Match n S S' (draws e) [e] l' ∧ (∀ o ∈ l', NoReset o) ∧
        (S.any = true → S'.any = true) ∧ ((∃ q qs, e = .reset (q :: qs)) → S'.any = true) := by
    intro e he hv hu h1 h2
    have e1 : elimPart 0 S e = some (S, [rewire S.pos e]) := by
      rw [elimPart]; exact fun qs h => h1 qs h
    have e2 : (if S.any then some (S, [rewire S.pos e]) else some (S, [e])) =
        some (S, [rewire S.pos e]) := by
      by_cases ha : S.any = true
      · rw [if_pos ha]
      · rw [if_neg ha, (hS.start (by simpa using ha)).1, rewire_id]
    obtain ⟨S', l', h3, h4, h5, h6⟩ := Match.part hS he hv hu
    rw [e1] at h3
    rw [e2]
    refine ⟨S', l', h3, h4, ?_, h6, fun ⟨q, qs, h⟩ => absurd h (h1 _)⟩
    injection h3 with h3
    rw [Prod.mk.injEq] at h3
    obtain ⟨-, rfl⟩ := h3
    intro o ho
    refine ⟨h5 o ho, ?_⟩
    rw [List.mem_singleton] at ho
    subst ho
    match e with
    | .compound ps cu => exact absurd rfl (h2 ps cu)
    | .std _ => exact id
    | .measure _ _ => exact id
    | .reset _ => exact id
    | .classic _ _ => exact id
  match e with
  | .reset qs =>
    rw [Op.acts] at hu
    obtain ⟨S', h1, h2, h3⟩ := reset_fold_none (qs := qs) (S := S)
    refine ⟨S', [], by rw [elimOp, h1]; rfl,
      Match.reset hS (fun q hq => hu q (List.mem_toFinset.2 hq)) h1, fun o ho => (List.not_mem_nil ho).elim, h2, ?_⟩
    rintro ⟨q, qs', h⟩
    injection h with h
    subst h
    exact h3 (by simp)
  | .compound ps cu =>
    rw [Op.Valid] at hv
    rw [Op.acts] at hu
    rw [elimOp]
    by_cases ha : S.any = true
    · rw [if_pos ha]
      obtain ⟨S', l', h1, h2, h3, h4⟩ := Match.parts ps hS he hv hu
      refine ⟨S', [.compound l' cu], by rw [h1]; rfl, by rw [draws]; exact h2.compound, ?_, h4,
        fun ⟨q, qs, h⟩ => by cases h⟩
      intro o ho
      rw [List.mem_singleton] at ho
      subst ho
      exact ⟨by rw [Op.type]; decide, fun ⟨e, he, h⟩ => h3 e he h⟩
    · rw [if_neg ha]
      have hnr := hr.resolve_left ha
      have hne : ∀ e ∈ ps, e.type ≠ .reset := fun e he h => hnr ⟨e, he, h⟩
      refine ⟨S, [.compound ps cu], rfl, ?_, ?_, fun h => h, fun ⟨q, qs, h⟩ => by cases h⟩
      · rw [draws]
        exact (Match.parts_keep ps hS (by simpa using ha) (fun e h => ⟨he e h, hne e h⟩) hv hu).compound
      · intro o ho
        rw [List.mem_singleton] at ho
        subst ho
        exact ⟨by rw [Op.type]; decide, hnr⟩
  | .std _ => exact simple _ he hv hu (fun _ h => by cases h) (fun _ _ h => by cases h)
  | .measure _ _ => exact simple _ he hv hu (fun _ h => by cases h) (fun _ _ h => by cases h)
  | .classic _ _ => exact simple _ he hv hu (fun _ h => by cases h) (fun _ _ h => by cases h)

theorem Match.ops (ops : List (Op ℝ)) (hS : Places n S) (he : ∀ e ∈ ops, Flat e) (hv : Op.ValidL ops)
    (hu : ∀ e ∈ ops, ∀ q ∈ e.acts, q < n) (hr : S.any = true ∨ ResetsSeen ops) :
    ∃ S' l', elimOps 0 S ops = some (S', l') ∧ Match n S S' (drawsL ops) ops l' ∧
      ∀ o ∈ l', NoReset o := by
  induction ops generalizing S with
  | nil => exact ⟨S, [], rfl, Match.nil hS, fun o ho => (List.not_mem_nil ho).elim⟩
  | cons e l ih =>
    rw [Op.ValidL] at hv
    have hr1 : S.any = true ∨ ¬ HasReset e := by
      rcases hr with h | h
      · exact Or.inl h
      · right
        unfold ResetsSeen at h
        split at h
        · rename_i h'; cases h'
        · rename_i h'; injection h' with h1 h2; subst h1; exact id
        · rename_i h'; injection h' with h1 h2; subst h1; exact h.1
    obtain ⟨S1, l1, h1, h2, h3, h4, h5⟩ := Match.op hS (he e (by simp)) hv.1 (hu e (by simp)) hr1
    have hr2 : S1.any = true ∨ ResetsSeen l := by
      rcases hr with h | h
      · exact Or.inl (h4 h)
      · unfold ResetsSeen at h
        split at h
        · rename_i h'; cases h'
        · rename_i h'; injection h' with e1 e2; subst e1; exact Or.inl (h5 ⟨_, _, rfl⟩)
        · rename_i h'; injection h' with e1 e2; subst e2; exact Or.inr h.2
    obtain ⟨S2, l2, g1, g2, g3⟩ := ih h2.places (fun e' he' => he e' (List.mem_cons_of_mem _ he')) hv.2
      (fun e' he' => hu e' (List.mem_cons_of_mem _ he')) hr2
    refine ⟨S2, l1 ++ l2, ?_, ?_, ?_⟩
    · rw [elimOps, h1, Option.bind_some, g1]; rfl
    · rw [drawsL]; exact h2.append g2
    · intro o ho
      exact (List.mem_append.1 ho).elim (h3 o) (g3 o)

theorem Sim.init {ψ : State} (h : Supp n ψ) : Sim n (ResetState.init n) [] ψ ψ := by
  refine ⟨fun x y hxy => ?_, h, rfl⟩
  congr 1
  funext q
  rcases Nat.lt_or_ge q n with hq | hq
  · exact (hxy.cur q hq).symm
  · rw [hxy.dom q hq, hxy.new q hq]

theorem eliminateResets_correct {ops : List (Op ℝ)} (hv : Op.ValidL ops) (he : ∀ e ∈ ops, Flat e)
    (hu : ∀ e ∈ ops, ∀ q ∈ e.acts, q < n) (hr : ResetsSeen ops) :
    ∃ S ops', eliminateResets n 0 ops = some (S, ops') ∧ Places n S ∧ (∀ o ∈ ops', NoReset o) ∧
      ∀ c, Supp n c.st → ∃ d d', run ops c = some d ∧
        run ops' { c with orc := measOrc (drawsL ops) c.orc } = some d' ∧ d'.mem = d.mem ∧
        d'.orc = d.orc ∧ Sim n S (resetOuts (drawsL ops) c.orc) d.st d'.st := by
  obtain ⟨S, l, h1, h2, h3⟩ := Match.ops ops (Places.init n) he hv hu (Or.inr hr)
  refine ⟨S, l, h1, h2.places, h3, fun c hc => ?_⟩
  obtain ⟨d, d', r1, r2, tw, o1, -⟩ := h2.sim [] [] c { c with orc := measOrc (drawsL ops) c.orc }
    ⟨rfl, Sim.init hc⟩ (by rw [List.append_nil])
  exact ⟨d, d', r1, r2, tw.mem, o1, tw.sim⟩

/-! ### Probabilities -/

/-- The basis state with the given values on the first `n` qubits and zero elsewhere. -/
def extend (n : ℕ) (v : Fin n → Bool) : Bits := fun q => if h : q < n then v ⟨q, h⟩ else false

/-- The squared norm of a state of `n` qubits. -/
noncomputable def weight (n : ℕ) (ψ : State) : ℝ := ∑ v : Fin n → Bool, Complex.normSq (ψ (extend n v))

/-- Put the outcomes `rs` of the resets and the outcomes `o` of the measurements in order. -/
def weave : List Bool → List Bool → (ℕ → Bool) → ℕ → Bool
  | [], _, o => o
  | true :: t, r :: rs, o => fun k => match k with
    | 0 => r
    | k + 1 => weave t rs o k
  | true :: _, [], o => o
  | false :: t, rs, o => fun k => match k with
    | 0 => o 0
    | k + 1 => weave t rs (fun k => o (k + 1)) k

theorem resetOuts_weave (t rs : List Bool) (o : ℕ → Bool) (h : rs.length = t.count true) :
    resetOuts t (weave t rs o) = rs := by
  induction t generalizing rs o with
  | nil => cases rs with
    | nil => rfl
    | cons r rs => simp at h
  | cons b t ih =>
    cases b with
    | true =>
      cases rs with
      | nil => simp at h
      | cons r rs =>
        simp only [List.length_cons, List.count_cons_self, Nat.add_right_cancel_iff] at h
        simp only [resetOuts, weave, ih rs o h]
    | false =>
      simp only [resetOuts, weave]
      exact ih rs _ (by simpa using h)

theorem measOrc_weave (t rs : List Bool) (o : ℕ → Bool) (h : rs.length = t.count true) :
    measOrc t (weave t rs o) = o := by
  induction t generalizing rs o with
  | nil => rfl
  | cons b t ih =>
    cases b with
    | true =>
      cases rs with
      | nil => simp at h
      | cons r rs =>
        simp only [List.length_cons, List.count_cons_self, Nat.add_right_cancel_iff] at h
        simp only [measOrc, weave, ih rs o h]
    | false =>
      funext k
      cases k with
      | zero => rfl
      | succ k =>
        simp only [measOrc, weave]
        rw [ih rs _ (by simpa using h)]

theorem weave_split (t : List Bool) (o : ℕ → Bool) : weave t (resetOuts t o) (measOrc t o) = o := by
  induction t generalizing o with
  | nil => rfl
  | cons b t ih =>
    funext k
    cases b <;> cases k with
    | zero => rfl
    | succ k => simp only [weave, measOrc, resetOuts, ih]

theorem resetOuts_length (t : List Bool) (o : ℕ → Bool) : (resetOuts t o).length = t.count true := by
  induction t generalizing o with
  | nil => rfl
  | cons b t ih => cases b <;> simp [resetOuts, ih]

/-- The places of the qubits and the qubits given up, numbered. -/
noncomputable def Places.equiv (h : Places n S) : Fin n ⊕ Fin S.left.length ≃ Fin S.next :=
  Equiv.ofBijective
    (Sum.elim (fun q => ⟨S.pos q, h.lt q q.2⟩) fun j => ⟨S.left[j], h.leftLt _ (List.getElem_mem j.2)⟩) (by
    constructor
    · rintro (a | a) (b | b) e <;> simp only [Sum.elim_inl, Sum.elim_inr, Fin.mk.injEq] at e
      · exact congrArg Sum.inl (Fin.ext (h.inj a a.2 b b.2 e))
      · exact absurd (e ▸ List.getElem_mem b.2) (h.notLeft a a.2)
      · exact absurd (e.symm ▸ List.getElem_mem a.2) (h.notLeft b b.2)
      · exact congrArg Sum.inr (Fin.ext ((List.Nodup.getElem_inj_iff h.nodup).1 e))
    · rintro ⟨p, hp⟩
      rcases h.cover p hp with ⟨q, hq, rfl⟩ | hp'
      · exact ⟨Sum.inl ⟨q, hq⟩, rfl⟩
      · obtain ⟨j, hj, rfl⟩ := List.getElem_of_mem hp'
        exact ⟨Sum.inr ⟨j, hj⟩, rfl⟩)

theorem Places.spreads (h : Places n S) (w : Fin S.next → Bool) :
    Spreads n S (List.ofFn fun j => w (h.equiv (Sum.inr j))) (extend n fun q => w (h.equiv (Sum.inl q)))
      (extend S.next w) := by
  refine ⟨?_, ?_, ?_, ?_⟩
  · intro q hq
    rw [extend, dif_pos (h.lt q hq), extend, dif_pos hq]
    rfl
  · intro p hp
    obtain ⟨j, hj, rfl⟩ := List.getElem_of_mem hp
    rw [List.getElem_zip]
    have hj' : j < S.left.length := by simpa using hj
    rw [extend, dif_pos (h.leftLt _ (List.getElem_mem hj')), List.getElem_ofFn]
    rfl
  · intro p hp
    rw [extend, dif_neg (by omega)]
  · intro p hp
    rw [extend, dif_neg (by omega)]

/-- If the amplitudes correspond for all outcomes of the resets, the squared norms add up. -/
theorem weight_sum (h : Places n S) {ψ' : State} {ψ : List Bool → State}
    (hs : ∀ rs : List Bool, rs.length = S.left.length → Sim n S rs (ψ rs) ψ') :
    ∑ r : Fin S.left.length → Bool, weight n (ψ (List.ofFn r)) = weight S.next ψ' := by
  unfold weight
  rw [← Finset.sum_product' (f := fun r v => Complex.normSq (ψ (List.ofFn r) (extend n v)))]
  symm
  refine Finset.sum_bij'
    (fun w _ => (fun j => w (h.equiv (Sum.inr j)), fun q => w (h.equiv (Sum.inl q))))
    (fun p _ => fun k => Sum.elim p.2 p.1 (h.equiv.symm k)) ?_ ?_ ?_ ?_ ?_
  · intro w _; simp
  · intro p _; simp
  · intro w _
    funext k
    simp only
    obtain ⟨s, rfl⟩ := h.equiv.surjective k
    rw [Equiv.symm_apply_apply]
    cases s <;> rfl
  · intro p _
    simp
  · intro w _
    simp only
    rw [(hs _ (by simp)).amp _ _ (h.spreads w)]

end MQT.Opt

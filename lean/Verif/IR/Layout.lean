/-
The bookkeeping of initial layout and output permutation.

Sources: `src/ir/QuantumComputation.cpp` 334-364 (`addQubitRegister`), 385-410
(`addAncillaryRegister`), 412-459 (`removeQubit`), 461-496 (`addAncillaryQubit`), 498-539 (`addQubit`),
814-824 (`getPhysicalQubitIndex`); `include/mqt-core/ir/Permutation.hpp` (a `std::map`).

Not modelled: the register maps (names, splitting, merging) and the ancillary/garbage flags.  Which of
the two counters a removal decrements depends on them and is an arbitrary input here.
-/
import Mathlib.Data.Nat.Find
import Mathlib.Logic.Function.Basic
import Mathlib.Tactic.Common
import Mathlib.Order.Basic

set_option autoImplicit false
set_option linter.unusedSectionVars false

namespace MQT.IR.Layout

open Function (update)

/-- `std::map` from physical to logical qubits. -/
abbrev PMap := ℕ → Option ℕ

/-- `map.emplace`: does not overwrite. -/
def emplace (m : PMap) (k v : ℕ) : PMap := if (m k).isSome then m else update m k (some v)

/-- `emplace` of an optional value. -/
def emplaceOpt (m : PMap) (k : ℕ) : Option ℕ → PMap
  | some v => emplace m k v
  | none => m

/-- `emplace(j, j)` for `j = a, …, a + n - 1`. -/
def emplaceRange (m : PMap) (a : ℕ) : ℕ → PMap
  | 0 => m
  | n + 1 => emplace (emplaceRange m a n) (a + n) (a + n)

structure LS where
  nq : ℕ
  na : ℕ
  init : PMap
  out : PMap

def LS.n (s : LS) : ℕ := s.nq + s.na

/-- The empty circuit. -/
def empty : LS := { nq := 0, na := 0, init := fun _ => none, out := fun _ => none }

/-- `addQubitRegister` (size). -/
def addReg (s : LS) (k : ℕ) : Option LS :=
  if k = 0 ∨ s.na ≠ 0 then none
  else some { s with
    nq := s.nq + k
    init := emplaceRange s.init s.nq k
    out := emplaceRange s.out s.nq k }

/-- `addAncillaryRegister` (size). -/
def addAncReg (s : LS) (k : ℕ) : Option LS :=
  if k = 0 then none
  else some { s with
    na := s.na + k
    init := emplaceRange s.init s.n k
    out := emplaceRange s.out s.n k }

/-- `addAncillaryQubit`. -/
def addAnc (s : LS) (p : ℕ) (o : Option ℕ) : Option LS :=
  if (s.init p).isSome ∨ (s.out p).isSome then none
  else some { s with
    na := s.na + 1
    init := emplace s.init p s.n
    out := emplaceOpt s.out p o }

/-- `addQubit`. -/
def addQubit (s : LS) (l p : ℕ) (o : Option ℕ) : Option LS :=
  if (s.init p).isSome ∨ (s.out p).isSome then none
  else if l > s.nq then none
  else some { s with
    nq := s.nq + 1
    init := emplace s.init p l
    out := emplaceOpt s.out p o }

/-- `removeQubit` of logical qubit `l`; `p` is the first physical qubit assigned to it and `anc` tells
which counter is decremented. -/
def remove (s : LS) (l p : ℕ) (anc : Bool) : Option LS :=
  if s.init p = some l ∧ ∀ p' < p, s.init p' ≠ some l then
    some {
      nq := if anc then s.nq else s.nq - 1
      na := if anc then s.na - 1 else s.na
      init := update s.init p none
      out := update s.out p none }
  else none

inductive LOp
  | addReg (k : ℕ)
  | addAncReg (k : ℕ)
  | addAnc (p : ℕ) (o : Option ℕ)
  | addQubit (l p : ℕ) (o : Option ℕ)
  | remove (l p : ℕ) (anc : Bool)

def step (s : LS) : LOp → Option LS
  | .addReg k => Layout.addReg s k
  | .addAncReg k => Layout.addAncReg s k
  | .addAnc p o => Layout.addAnc s p o
  | .addQubit l p o => Layout.addQubit s l p o
  | .remove l p anc => Layout.remove s l p anc

/-! ### Injectivity -/

/-- No two physical qubits have the same logical qubit. -/
def Inj (m : PMap) : Prop := ∀ p p' v, m p = some v → m p' = some v → p = p'

def Bounded (m : PMap) (n : ℕ) : Prop := ∀ p v, m p = some v → v < n

theorem emplace_inj {m : PMap} {k v : ℕ} (h : Inj m) (hv : ∀ p, m p ≠ some v) : Inj (emplace m k v) := by
  unfold emplace
  split_ifs
  · exact h
  · intro p p' w h1 h2
    by_cases e1 : p = k
    · by_cases e2 : p' = k
      · rw [e1, e2]
      · subst e1
        rw [Function.update_self] at h1
        rw [Function.update_of_ne e2] at h2
        injection h1 with h1; subst h1
        exact absurd h2 (hv p')
    · rw [Function.update_of_ne e1] at h1
      by_cases e2 : p' = k
      · subst e2
        rw [Function.update_self] at h2
        injection h2 with h2; subst h2
        exact absurd h1 (hv p)
      · rw [Function.update_of_ne e2] at h2
        exact h p p' w h1 h2

theorem emplace_bounded {m : PMap} {k v n : ℕ} (h : Bounded m n) (hv : v < n) : Bounded (emplace m k v) n := by
  unfold emplace
  split_ifs
  · exact h
  · intro p w h1
    by_cases e1 : p = k
    · subst e1; rw [Function.update_self] at h1; injection h1 with h1; omega
    · rw [Function.update_of_ne e1] at h1; exact h p w h1

theorem emplaceRange_ok {m : PMap} {a : ℕ} (h : Inj m) (hb : Bounded m a) (k : ℕ) :
    Inj (emplaceRange m a k) ∧ Bounded (emplaceRange m a k) (a + k) := by
  induction k with
  | zero => exact ⟨h, hb⟩
  | succ k ih =>
    constructor
    · refine emplace_inj ih.1 fun p hp => ?_
      have := ih.2 p _ hp
      omega
    · refine emplace_bounded (fun p v hp => ?_) (by omega)
      have := ih.2 p v hp
      omega

structure Inv (s : LS) : Prop where
  init : Inj s.init
  out : Inj s.out
  initB : Bounded s.init s.n
  outB : Bounded s.out s.n

/-- The operations for which the bookkeeping is right: new logical qubits come last, a given output
position is new, and only the last logical qubit is removed. -/
def Admissible (s : LS) : LOp → Prop
  | .addReg _ => True
  | .addAncReg _ => True
  | .addAnc _ o => ∀ v, o = some v → v ≤ s.n ∧ ∀ p, s.out p ≠ some v
  | .addQubit l _ o => l = s.n ∧ ∀ v, o = some v → v ≤ s.n ∧ ∀ p, s.out p ≠ some v
  | .remove l p anc => l + 1 = s.n ∧ (∀ p', s.out p' = some l → p' = p) ∧ (anc = true → s.na ≠ 0) ∧
      (anc = false → s.nq ≠ 0)

theorem update_none_inj {m : PMap} {p : ℕ} (h : Inj m) : Inj (update m p none) := by
  intro q q' v h1 h2
  have e1 : q ≠ p := by rintro rfl; rw [Function.update_self] at h1; cases h1
  have e2 : q' ≠ p := by rintro rfl; rw [Function.update_self] at h2; cases h2
  rw [Function.update_of_ne e1] at h1
  rw [Function.update_of_ne e2] at h2
  exact h q q' v h1 h2

theorem emplace_out {m : PMap} {n p : ℕ} {o : Option ℕ} (h : Inj m) (hb : Bounded m n)
    (ho : ∀ v, o = some v → v ≤ n ∧ ∀ p, m p ≠ some v) :
    Inj (emplaceOpt m p o) ∧ Bounded (emplaceOpt m p o) (n + 1) := by
  have hb' : Bounded m (n + 1) := fun q v hq => Nat.lt_succ_of_lt (hb q v hq)
  cases o with
  | none => exact ⟨h, hb'⟩
  | some v =>
    obtain ⟨h1, h2⟩ := ho v rfl
    exact ⟨emplace_inj h h2, emplace_bounded hb' (by omega)⟩

theorem step_inv {s s' : LS} {op : LOp} (h : Inv s) (ha : Admissible s op) (hs : step s op = some s') :
    Inv s' := by
  cases op with
  | addReg k =>
    rw [step, addReg] at hs
    split_ifs at hs with hc
    injection hs with hs
    subst hs
    have hn : s.n = s.nq := by unfold LS.n; omega
    have hi := h.initB; have ho := h.outB
    rw [hn] at hi ho
    have e1 := emplaceRange_ok h.init hi k
    have e2 := emplaceRange_ok h.out ho k
    have e : (⟨s.nq + k, s.na, emplaceRange s.init s.nq k, emplaceRange s.out s.nq k⟩ : LS).n = s.nq + k := by
      simp only [LS.n]; omega
    exact ⟨e1.1, e2.1, by rw [e]; exact e1.2, by rw [e]; exact e2.2⟩
  | addAncReg k =>
    rw [step, addAncReg] at hs
    split_ifs at hs
    injection hs with hs
    subst hs
    have e1 := emplaceRange_ok h.init h.initB k
    have e2 := emplaceRange_ok h.out h.outB k
    have e : (⟨s.nq, s.na + k, emplaceRange s.init s.n k, emplaceRange s.out s.n k⟩ : LS).n = s.n + k := by
      simp only [LS.n]; omega
    exact ⟨e1.1, e2.1, by rw [e]; exact e1.2, by rw [e]; exact e2.2⟩
  | addAnc p o =>
    simp only [step, addAnc] at hs
    split_ifs at hs
    injection hs with hs
    subst hs
    have e2 := emplace_out (p := p) (o := o) h.out h.outB ha
    have e1 : Inj (emplace s.init p s.n) :=
      emplace_inj h.init fun q hq => by have := h.initB q _ hq; omega
    have e1' : Bounded (emplace s.init p s.n) (s.n + 1) :=
      emplace_bounded (fun q v hq => by have := h.initB q v hq; omega) (by omega)
    exact ⟨e1, e2.1, e1', e2.2⟩
  | addQubit l p o =>
    obtain ⟨rfl, ha⟩ := ha
    simp only [step, addQubit] at hs
    split_ifs at hs
    injection hs with hs
    subst hs
    have e2 := emplace_out (p := p) (o := o) h.out h.outB ha
    have e1 : Inj (emplace s.init p s.n) :=
      emplace_inj h.init fun q hq => by have := h.initB q _ hq; omega
    have e1' : Bounded (emplace s.init p s.n) (s.n + 1) :=
      emplace_bounded (fun q v hq => by have := h.initB q v hq; omega) (by omega)
    refine ⟨e1, e2.1, ?_, ?_⟩
    · intro q v hq; have := e1' q v hq; simp only [LS.n] at this ⊢; omega
    · intro q v hq; have := e2.2 q v hq; simp only [LS.n] at this ⊢; omega
  | remove l p anc =>
    obtain ⟨h1, h2, h3, h4⟩ := ha
    have hc : s.init p = some l ∧ ∀ p' < p, s.init p' ≠ some l := by
      by_contra hc
      rw [step, remove, if_neg hc] at hs
      cases hs
    rw [step, remove, if_pos hc] at hs
    injection hs with hs
    have hn : s'.n + 1 = s.n := by
      subst hs
      cases anc
      · have := h4 rfl
        simp only [LS.n, Bool.false_eq_true, if_false]
        omega
      · have := h3 rfl
        simp only [LS.n, if_true]
        omega
    have key : ∀ (m : PMap), Bounded m s.n → (∀ q, m q = some l → q = p) →
        Bounded (update m p none) s'.n := by
      intro m hm hl q v hq
      have e : q ≠ p := by rintro rfl; simp only [Function.update_self] at hq; cases hq
      simp only [Function.update_of_ne e] at hq
      have hb := hm q v hq
      have : v ≠ l := by rintro rfl; exact e (hl q hq)
      omega
    have e1 := key s.init h.initB fun q hq => h.init q p l hq hc.1
    have e2 := key s.out h.outB h2
    subst hs
    exact ⟨update_none_inj h.init, update_none_inj h.out, e1, e2⟩

/-- Execute a history; `none` if one of the calls throws. -/
def exec (s : LS) : List LOp → Option LS
  | [] => some s
  | op :: l => (step s op).bind fun s' => exec s' l

/-- All operations of the history are admissible when they are executed. -/
def AdmissibleAll (s : LS) : List LOp → Prop
  | [] => True
  | op :: l => Admissible s op ∧ ∀ s', step s op = some s' → AdmissibleAll s' l

theorem exec_inv {s s' : LS} (l : List LOp) (h : Inv s) (ha : AdmissibleAll s l) (he : exec s l = some s') :
    Inv s' := by
  induction l generalizing s with
  | nil => rw [exec] at he; injection he with he; subst he; exact h
  | cons op l ih =>
    rw [exec, Option.bind_eq_some_iff] at he
    obtain ⟨t, h1, h2⟩ := he
    exact ih (step_inv h ha.1 h1) (ha.2 t h1) h2

theorem empty_inv : Inv empty :=
  ⟨fun _ _ _ h => (by cases h), fun _ _ _ h => (by cases h), fun _ _ h => (by cases h),
    fun _ _ h => (by cases h)⟩

end MQT.IR.Layout

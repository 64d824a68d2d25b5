/-
Layers of circuits: what `Layer::constructDAG` (`src/datastructures/Layer.cpp` 26-179) asks about standard operations and
measurements, and the meaning of an order of execution.

Not modelled: compound and classically controlled operations in the circuit (`CompoundOperation::isInverseOf` reorders the
operations of both sides first).
-/
import Verif.DataStructures.LayerProof
import Verif.IR.Commute
import Verif.IR.Circuit
import Mathlib.Data.Finset.Lattice.Fold
import Mathlib.Data.List.Perm.Basic

set_option autoImplicit false

namespace MQT.Layer

open MQT.IR

/-- An operation of the circuit: a standard operation, or a measurement of `qs` into `cs`. -/
inductive LOp (P : Type)
  | std (o : StdOp P)
  | meas (qs cs : List ℕ)

/-- The elements of a `std::set<Qubit>`, in order. -/
def ascending (s : Finset ℕ) : List ℕ := (List.range (s.sup id + 1)).filter (· ∈ s)

namespace LOp

variable {P : Type}

/-- `getUsedQubits` (Operation.cpp 198-213). -/
def used : LOp P → Finset ℕ
  | std o => o.used
  | meas qs _ => qs.toFinset

/-- `commutesAtQubit` (StandardOperation.cpp 497-558; Operation.hpp 211-215 for measurements). A measurement is neither
diagonal nor controlled nor of the type of a standard operation. -/
def commutesAt [DecidableEq P] : LOp P → LOp P → ℕ → Bool
  | std a, std b, q => a.commutesAt b q
  | std a, meas qs _, q => !a.actsOn q || !decide (q ∈ qs)
  | meas _ _, _, _ => false

/-- `operator==` (Operation.cpp 112-161, NonUnitaryOperation.cpp 128-178). -/
def equals [DecidableEq P] : LOp P → LOp P → Bool
  | std a, std b => StdOp.equals id id a b
  | meas qs cs, meas qs' cs' => qs.length == qs'.length && decide ((qs.zip cs).toFinset = (qs'.zip cs').toFinset)
  | _, _ => false

/-- `isInverseOf` (Operation.cpp 194-196); `none` when inverting the other operation throws (NonUnitaryOperation.hpp
87-90). -/
def isInverseOf [DecidableEq P] (inv : StdOp P → Option (StdOp P)) : LOp P → LOp P → Option Bool
  | a, std b => (inv b).map fun b' => a.equals (std b')
  | _, meas _ _ => none

end LOp

/-- The tables for a circuit. -/
def tables {P : Type} [DecidableEq P] (inv : StdOp P → Option (StdOp P)) (c : List (LOp P)) : Tables where
  used i := match c[i]? with
    | some o => ascending o.used
    | none => []
  comm i j q := match c[i]?, c[j]? with
    | some a, some b => a.commutesAt b q
    | _, _ => true
  inv i j := match c[i]?, c[j]? with
    | some a, some b => a.isInverseOf inv b
    | _, _ => none
  eq i j := match c[i]?, c[j]? with
    | some a, some b => a.equals b
    | _, _ => false

/-- `Layer(qc, commutable)` for a circuit on `nq` qubits. -/
noncomputable def layer (nq : ℕ) (c : List (LOp ℝ)) (commutable : Bool) : MQT.Res Graph :=
  construct (@tables ℝ (Classical.decEq ℝ) StdOp.invert c) nq c.length commutable

/-- The operations in the order of execution. -/
def inOrder {α : Type} (c : List α) (l : List ℕ) : List α := l.filterMap fun v => c[v]?

/-! ### Tables -/

theorem mem_ascending {s : Finset ℕ} {q : ℕ} : q ∈ ascending s ↔ q ∈ s := by
  unfold ascending
  rw [List.mem_filter, List.mem_range, decide_eq_true_iff]
  refine ⟨fun h => h.2, fun h => ⟨?_, h⟩⟩
  have : q ≤ s.sup id := Finset.le_sup (f := id) h
  omega

theorem ascending_nodup (s : Finset ℕ) : (ascending s).Nodup := List.nodup_range.filter _

theorem actsOn_iff {P : Type} {o : StdOp P} {q : ℕ} : o.actsOn q = true ↔ q ∈ o.used := by
  simp [StdOp.actsOn, StdOp.used]

/-- When two operations using a qubit commute there. -/
theorem commutesAt_iff {P : Type} [DecidableEq P] {a b : StdOp P} {q : ℕ} (ha : q ∈ a.used) (hb : q ∈ b.used) :
    a.commutesAt b q = true ↔
      ((a.controlledOn q = true ∨ a.type.isDiagonal = true) ∧ (b.controlledOn q = true ∨ b.type.isDiagonal = true)) ∨
      (a.controlledOn q = false ∧ b.controlledOn q = false ∧ a.type = b.type ∧ a.targets = b.targets ∧
        (a.params.length ≤ 1 ∨ a.params = b.params)) := by
  unfold StdOp.commutesAt
  rw [actsOn_iff.2 ha, actsOn_iff.2 hb]
  simp only [Bool.not_true, Bool.or_self, Bool.false_eq_true, if_false]
  by_cases h1 : a.controlledOn q <;> by_cases h2 : b.controlledOn q <;>
    by_cases h3 : a.type.isDiagonal <;> by_cases h4 : b.type.isDiagonal <;>
    by_cases h5 : a.params.length ≤ 1 <;> simp [h1, h2, h3, h4, h5, and_assoc]

/-- Operations of one type have the same number of parameters. -/
def Arity {P : Type} (c : List (StdOp P)) : Prop :=
  ∀ a ∈ c, ∀ b ∈ c, a.type = b.type → a.params.length = b.params.length

theorem tables_used {P : Type} [DecidableEq P] (inv : StdOp P → Option (StdOp P)) (c : List (StdOp P)) {i q : ℕ}
    {o : StdOp P} (h : c[i]? = some o) : q ∈ (tables inv (c.map .std)).used i ↔ q ∈ o.used := by
  simp only [tables, List.getElem?_map, h, Option.map_some]
  exact mem_ascending

theorem tables_comm {P : Type} [DecidableEq P] (inv : StdOp P → Option (StdOp P)) (c : List (StdOp P)) {i j q : ℕ}
    {a b : StdOp P} (ha : c[i]? = some a) (hb : c[j]? = some b) :
    (tables inv (c.map .std)).comm i j q = a.commutesAt b q := by
  simp only [tables, List.getElem?_map, ha, hb, Option.map_some]
  rfl

theorem tables_commOK {P : Type} [DecidableEq P] (inv : StdOp P → Option (StdOp P)) (c : List (StdOp P)) (hc : Arity c) :
    CommOK (tables inv (c.map .std)) c.length where
  refl q a ha hq := by
    obtain ⟨o, ho⟩ : ∃ o, c[a]? = some o := ⟨_, List.getElem?_eq_getElem ha⟩
    rw [tables_used inv c ho] at hq
    rw [tables_comm inv c ho ho, commutesAt_iff hq hq]
    by_cases h1 : o.controlledOn q <;> simp [h1]
  euclid q i j k hi hj hk qi qj qk hij hik := by
    obtain ⟨a, ha⟩ : ∃ o, c[i]? = some o := ⟨_, List.getElem?_eq_getElem hi⟩
    obtain ⟨b, hb⟩ : ∃ o, c[j]? = some o := ⟨_, List.getElem?_eq_getElem hj⟩
    obtain ⟨d, hd⟩ : ∃ o, c[k]? = some o := ⟨_, List.getElem?_eq_getElem hk⟩
    rw [tables_used inv c ha] at qi
    rw [tables_used inv c hb] at qj
    rw [tables_used inv c hd] at qk
    rw [tables_comm inv c ha hb, commutesAt_iff qi qj] at hij
    rw [tables_comm inv c ha hd, commutesAt_iff qi qk] at hik
    rw [tables_comm inv c hb hd, commutesAt_iff qj qk]
    rcases hij with ⟨h1, h2⟩ | ⟨h1, h2, h3, h4, h5⟩ <;> rcases hik with ⟨k1, k2⟩ | ⟨k1, k2, k3, k4, k5⟩
    · exact Or.inl ⟨h2, k2⟩
    · rcases h1 with h1 | h1
      · rw [k1] at h1; cases h1
      · exact Or.inl ⟨h2, Or.inr (k3 ▸ h1)⟩
    · rcases k1 with k1 | k1
      · rw [h1] at k1; cases k1
      · exact Or.inl ⟨Or.inr (h3 ▸ k1), k2⟩
    · refine Or.inr ⟨h2, k2, h3 ▸ k3, h4 ▸ k4, ?_⟩
      have e := hc a (List.mem_of_getElem? ha) b (List.mem_of_getElem? hb) h3
      by_cases hl : b.params.length ≤ 1
      · exact Or.inl hl
      · rw [← e] at hl
        exact Or.inr ((h5.resolve_left hl).symm.trans (k5.resolve_left hl))

/-! ### Orders of execution -/

/-- The effect of a sequence of steps. -/
def runs {σ : Type} (F : ℕ → σ → σ) (l : List ℕ) (s : σ) : σ := l.foldl (fun s v => F v s) s

theorem runs_comm {σ : Type} (F : ℕ → σ → σ) (v : ℕ) (l : List ℕ) (h : ∀ u ∈ l, ∀ s, F v (F u s) = F u (F v s)) (s : σ) :
    F v (runs F l s) = runs F l (F v s) := by
  induction l generalizing s with
  | nil => rfl
  | cons u l ih =>
    show F v (runs F l (F u s)) = runs F l (F u (F v s))
    rw [ih (fun u' hu' => h u' (List.mem_cons_of_mem _ hu')), h u List.mem_cons_self]

/-- Steps can be performed in every order that exchanges commuting steps only. -/
theorem runs_perm {σ : Type} (F : ℕ → σ → σ) (m : ℕ) (l : List ℕ) (hp : l.Perm (List.range m))
    (h : ∀ a j b, l = a ++ j :: b → ∀ i ∈ b, i < j → ∀ s, F j (F i s) = F i (F j s)) (s : σ) :
    runs F l s = runs F (List.range m) s := by
  induction m generalizing l s with
  | zero =>
    rw [List.range_zero, List.perm_nil] at hp; rw [hp]; rfl
  | succ m ih =>
    have hm : m ∈ l := hp.mem_iff.2 (List.mem_range.2 (by omega))
    obtain ⟨a, b, rfl⟩ := List.append_of_mem hm
    have hn : (a ++ m :: b).Nodup := hp.nodup_iff.2 List.nodup_range
    have hb : ∀ u ∈ b, u < m := fun u hu => by
      have h1 : u < m + 1 := List.mem_range.1 (hp.mem_iff.1 (by simp [hu]))
      have h2 : u ≠ m := fun e => by
        subst e
        have := (List.nodup_cons.1 (List.nodup_append.1 hn).2.1).1
        exact this hu
      omega
    have e1 : runs F (a ++ m :: b) s = F m (runs F (a ++ b) s) := by
      show List.foldl _ _ _ = _
      unfold runs
      rw [List.foldl_append, List.foldl_cons, List.foldl_append]
      exact (runs_comm F m b (fun u hu s => h a m b rfl u hu (hb u hu) s) _).symm
    have hp' : (a ++ b).Perm (List.range m) := by
      have h1 : (m :: (a ++ b)).Perm (m :: List.range m) :=
        (List.perm_middle.symm.trans hp).trans (by
          rw [List.range_succ]; exact List.perm_append_singleton m _)
      exact (List.perm_cons m).1 h1
    have e2 : runs F (a ++ b) s = runs F (List.range m) s := by
      refine ih (a ++ b) hp' (fun a' j b' e i hi hij => ?_) s
      rcases List.append_eq_append_iff.1 e with ⟨c, rfl, hc⟩ | ⟨c, rfl, hc⟩
      · exact h (a ++ m :: c) j b' (by simp [hc]) i hi hij
      · rcases c with _ | ⟨x, c⟩
        · rw [List.nil_append] at hc
          exact h (a' ++ [m]) j b' (by simp [hc]) i hi hij
        · injection hc with e1 e2; subst e1
          exact h a' j (c ++ m :: b) (by simp) i (by rw [e2] at hi; simp at hi ⊢; tauto) hij
    rw [e1, e2, List.range_succ]
    unfold runs; rw [List.foldl_append]; rfl

theorem inOrder_range {α : Type} (c : List α) : inOrder c (List.range c.length) = c := by
  have key : ∀ n, inOrder c (List.range n) = c.take n := by
    intro n
    induction n with
    | zero => rfl
    | succ n ih =>
      rw [List.range_succ, List.take_add_one, ← ih]
      unfold inOrder
      rw [List.filterMap_append]
      congr 1
  rw [key, List.take_length]

/-- The meaning of operation `v`, and nothing when there is none. -/
noncomputable def meaning (c : List (StdOp ℝ)) (v : ℕ) : State → State :=
  ((c[v]?).bind StdOp.denote).getD id

theorem denoteSeq_inOrder (c : List (StdOp ℝ)) (hc : ∀ o ∈ c, ∃ f, o.denote = some f) (l : List ℕ) :
    denoteSeq (inOrder c l) = some (runs (meaning c) l) := by
  induction l with
  | nil => rfl
  | cons v l ih =>
    unfold inOrder
    rw [List.filterMap_cons]
    rcases hv : c[v]? with _ | o
    · have : meaning c v = id := by simp [meaning, hv]
      have e : runs (meaning c) (v :: l) = runs (meaning c) l := by
        funext s; show runs _ l (meaning c v s) = _; rw [this]; rfl
      rw [e]; exact ih
    · obtain ⟨f, hf⟩ := hc o (List.mem_of_getElem? hv)
      have : meaning c v = f := by simp [meaning, hv, hf]
      have e : runs (meaning c) (v :: l) = fun s => runs (meaning c) l (f s) := by
        funext s; show runs _ l (meaning c v s) = _; rw [this]
      rw [e]
      exact denoteSeq_cons_of hf ih

/-- Waiting is respected by every execution. -/
theorem reach_before {g : Graph} {l : List ℕ}
    (hl : ∀ a v b, l = a ++ v :: b → ∀ u, v ∈ g.en u → u ∈ a) {i j : ℕ} (hr : Reach g.en i j) {a b : List ℕ}
    (e : l = a ++ j :: b) : i ∈ a := by
  induction hr generalizing a b with
  | single hab => exact hl a _ b e _ hab
  | tail _ hbc ih =>
    have := hl a _ b e _ hbc
    obtain ⟨a1, a2, rfl⟩ := List.append_of_mem this
    have := ih (a := a1) (b := a2 ++ _ :: b) (by rw [e]; simp; rfl)
    exact List.mem_append_left _ this

end MQT.Layer

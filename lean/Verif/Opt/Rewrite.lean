/-
Shared machinery of the peephole passes `swapReconstruction` and `cancelCNOTs`
(`src/circuit_optimizer/CircuitOptimizer.cpp` 89-168 and 992-1151): CNOT and SWAP as maps of
basis states, rewriting operations in place, and the per-qubit lists of operations (`DAG`,
`addToDag` 40-46).

The code keeps, for every qubit, a deque of pointers into the operation list.  The model keeps,
for every qubit, the list of positions in the operation list, last one first.
-/
import Verif.Opt.Op
import Mathlib.Data.List.Pairwise

set_option autoImplicit false
set_option linter.unusedSectionVars false

namespace MQT.Opt

open MQT.IR
open Function (update)

/-! ### CNOT and SWAP as maps of basis states -/

/-- The permutation of basis states performed by a CNOT. -/
def cxMap (c t : ℕ) (x : Bits) : Bits := update x t (xor (x t) (x c))

/-- The permutation of basis states performed by a SWAP. -/
def swapMap (a b : ℕ) (x : Bits) : Bits := update (update x a (x b)) b (x a)

/-- Relabel the amplitudes. -/
def pull (g : Bits → Bits) (ψ : State) : State := fun x => ψ (g x)

theorem cnot_denote {o : StdOp ℝ} {c t : ℕ} (ht : o.type = .x) (hc : o.controls = {(c, true)})
    (hq : o.targets = [t]) : o.denote = some (pull (cxMap c t)) := by
  obtain ⟨ty, ps, cs, ts⟩ := o
  simp only at ht hc hq
  subst ht hc hq
  rw [StdOp.denote_single_of (q := t) (M := mat1 0 1 1 0) rfl rfl rfl]
  congr 1
  funext ψ x
  have hs : Sat {(c, true)} x ↔ x c = true := by simp [Sat]
  simp only [ctl, hs, pull, cxMap]
  by_cases h : x c = true
  · rw [if_pos h, h]
    simp only [app1, Fintype.sum_bool, mat1]
    cases hx : x t <;> simp
  · rw [if_neg h]
    have : x c = false := by simpa using h
    rw [this, Bool.xor_false, Function.update_eq_self]

theorem swap_denote {o : StdOp ℝ} {a b : ℕ} (ht : o.type = .swap) (hc : o.controls = ∅)
    (hq : o.targets = [a, b]) : o.denote = some (pull (swapMap a b)) := by
  obtain ⟨ty, ps, cs, ts⟩ := o
  simp only at ht hc hq
  subst ht hc hq
  rw [StdOp.denote_two_of (q0 := a) (q1 := b)
    (M := mat2 1 0 0 0  0 0 1 0  0 1 0 0  0 0 0 1) rfl rfl rfl]
  congr 1
  funext ψ x
  rw [ctl_empty]
  simp only [app2, Fintype.sum_prod_type, Fintype.sum_bool, pull, swapMap, mat2]
  cases hx : x a <;> cases hy : x b <;> simp

theorem exec_pull {o : StdOp ℝ} {g : Bits → Bits} (h : o.denote = some (pull g)) (c : Cfg) :
    exec (.std o) c = some (c.mapSt (pull g)) := by rw [exec, h]; rfl

theorem cxMap_cxMap {c t : ℕ} (h : c ≠ t) (x : Bits) : cxMap c t (cxMap c t x) = x := by
  unfold cxMap
  rw [Function.update_self, Function.update_of_ne h, Function.update_idem]
  cases hx : x t <;> cases hy : x c <;> simp [← hx]

theorem swapMap_swapMap {a b : ℕ} (h : a ≠ b) (x : Bits) : swapMap a b (swapMap a b x) = x := by
  funext q
  unfold swapMap
  simp only [Function.update_apply]
  split_ifs <;> simp_all

theorem swapMap_comm (a b : ℕ) (x : Bits) : swapMap a b x = swapMap b a x := by
  funext q
  unfold swapMap
  simp only [Function.update_apply]
  split_ifs <;> simp_all

/-- `cx(a→b)` then `cx(b→a)` is `SWAP` then `cx(a→b)`. -/
theorem cx_cx_eq_swap_cx {a b : ℕ} (h : a ≠ b) (x : Bits) :
    cxMap a b (cxMap b a x) = swapMap a b (cxMap a b x) := by
  funext q
  unfold swapMap cxMap
  simp only [Function.update_apply]
  have h' := h.symm
  by_cases q1 : q = a <;> by_cases q2 : q = b <;> simp_all <;> cases x a <;> cases x b <;> rfl

/-- Three alternating CNOTs are a SWAP. -/
theorem cx_cx_cx_eq_swap {a b : ℕ} (h : a ≠ b) (x : Bits) :
    cxMap a b (cxMap b a (cxMap a b x)) = swapMap a b x := by
  funext q
  unfold swapMap cxMap
  simp only [Function.update_apply]
  have h' := h.symm
  by_cases q1 : q = a <;> by_cases q2 : q = b <;> simp_all
  cases x a <;> cases x b <;> rfl

/-! ### Equal meaning after dropping identities -/

/-- Same meaning once the top-level identities are dropped. -/
def Eqv (l l' : List (Op ℝ)) : Prop := run (strip l) = run (strip l')

theorem Eqv.refl (l : List (Op ℝ)) : Eqv l l := rfl
theorem Eqv.symm {l l' : List (Op ℝ)} (h : Eqv l l') : Eqv l' l := Eq.symm h
theorem Eqv.trans {a b c : List (Op ℝ)} (h : Eqv a b) (h' : Eqv b c) : Eqv a c := Eq.trans h h'
theorem Eqv.append {a a' b b' : List (Op ℝ)} (h : Eqv a a') (h' : Eqv b b') :
    Eqv (a ++ b) (a' ++ b') := by
  unfold Eqv; rw [strip_append, strip_append]; exact run_append_congr h h'

/-- A standard operation that is dropped or has a meaning. -/
def Ok (s : StdOp ℝ) : Prop := s.type = .i ∨ ∃ f, s.denote = some f

/-- `e` is dropped or does not touch `Q`. -/
def Avoids (Q : Finset ℕ) (e : Op ℝ) : Prop := e.type = .i ∨ Disjoint Q e.acts

theorem eqv_move {s : StdOp ℝ} (hs : Ok s) {Q : Finset ℕ} (hQ : s.type ≠ .i → s.used ⊆ Q)
    {B : List (Op ℝ)} (hB : ∀ e ∈ B, Avoids Q e) : Eqv (B ++ [.std s]) (.std s :: B) := by
  unfold Eqv
  have e1 : strip (.std s :: B) = strip [.std s] ++ strip B := strip_append [_] B
  rw [strip_append, e1]
  by_cases h : s.type = .i
  · have : strip [Op.std s] = [] := by simp [strip, Op.type, h]
    rw [this]; simp
  · have : strip [Op.std s] = [.std s] := by simp [strip, Op.type, h]
    rw [this]
    obtain ⟨f, hf⟩ := hs.resolve_left h
    refine run_move hf (strip B) fun e he => ?_
    rw [strip, List.mem_filter] at he
    have := (hB e he.1).resolve_left (by simpa using he.2)
    exact this.mono_left (hQ h)

/-- Replace two operations that are separated by operations on other qubits. -/
theorem eqv_pair {s1 s2 n1 n2 : StdOp ℝ} {Q : Finset ℕ} {A B R : List (Op ℝ)}
    (h2 : Ok s2) (k2 : Ok n2) (u2 : s2.type ≠ .i → s2.used ⊆ Q) (v2 : n2.type ≠ .i → n2.used ⊆ Q)
    (hB : ∀ e ∈ B, Avoids Q e) (h : Eqv [.std s1, .std s2] [.std n1, .std n2]) :
    Eqv (A ++ .std s1 :: (B ++ .std s2 :: R)) (A ++ .std n1 :: (B ++ .std n2 :: R)) := by
  refine Eqv.append (Eqv.refl A) ?_
  have g : ∀ (a b : StdOp ℝ), Ok b → (b.type ≠ .i → b.used ⊆ Q) →
      Eqv (.std a :: (B ++ .std b :: R)) ([.std a, .std b] ++ (B ++ R)) := by
    intro a b hb hu
    have e1 : (.std a :: (B ++ .std b :: R) : List (Op ℝ)) = [.std a] ++ ((B ++ [.std b]) ++ R) := by
      simp
    have e2 : ([.std a, .std b] ++ (B ++ R) : List (Op ℝ)) = [.std a] ++ ((.std b :: B) ++ R) := by
      simp
    rw [e1, e2]
    exact Eqv.append (Eqv.refl _) (Eqv.append (eqv_move hb hu hB) (Eqv.refl _))
  exact (g s1 s2 h2 u2).trans ((Eqv.append h (Eqv.refl _)).trans (g n1 n2 k2 v2).symm)

/-- Replace three operations that are separated by operations on other qubits. -/
theorem eqv_triple {s1 s2 s3 n1 n2 n3 : StdOp ℝ} {Q : Finset ℕ} {A B C R : List (Op ℝ)}
    (h2 : Ok s2) (k2 : Ok n2) (u2 : s2.type ≠ .i → s2.used ⊆ Q) (v2 : n2.type ≠ .i → n2.used ⊆ Q)
    (h3 : Ok s3) (k3 : Ok n3) (u3 : s3.type ≠ .i → s3.used ⊆ Q) (v3 : n3.type ≠ .i → n3.used ⊆ Q)
    (hB : ∀ e ∈ B, Avoids Q e) (hC : ∀ e ∈ C, Avoids Q e)
    (h : Eqv [.std s1, .std s2, .std s3] [.std n1, .std n2, .std n3]) :
    Eqv (A ++ .std s1 :: (B ++ .std s2 :: (C ++ .std s3 :: R)))
      (A ++ .std n1 :: (B ++ .std n2 :: (C ++ .std n3 :: R))) := by
  refine Eqv.append (Eqv.refl A) ?_
  have g : ∀ (a b c : StdOp ℝ), Ok b → (b.type ≠ .i → b.used ⊆ Q) →
      Ok c → (c.type ≠ .i → c.used ⊆ Q) →
      Eqv (.std a :: (B ++ .std b :: (C ++ .std c :: R)))
        ([.std a, .std b, .std c] ++ (B ++ C ++ R)) := by
    intro a b c hb hub hc huc
    have e1 : (.std a :: (B ++ .std b :: (C ++ .std c :: R)) : List (Op ℝ)) =
      [.std a] ++ ((B ++ [.std b]) ++ (C ++ .std c :: R)) := by simp
    have e2 : ([.std a] ++ ((.std b :: B) ++ (C ++ .std c :: R)) : List (Op ℝ)) =
      [.std a, .std b] ++ (((B ++ C) ++ [.std c]) ++ R) := by simp
    have e3 : ([.std a, .std b, .std c] ++ (B ++ C ++ R) : List (Op ℝ)) =
      [.std a, .std b] ++ ((.std c :: (B ++ C)) ++ R) := by simp
    rw [e1, e3]
    refine Eqv.trans (Eqv.append (Eqv.refl _) (Eqv.append (eqv_move hb hub hB) (Eqv.refl _))) ?_
    rw [e2]
    refine Eqv.append (Eqv.refl _) (Eqv.append (eqv_move hc huc ?_) (Eqv.refl _))
    intro e he
    exact (List.mem_append.1 he).elim (hB e) (hC e)
  exact (g s1 s2 s3 h2 u2 h3 u3).trans
    ((Eqv.append h (Eqv.refl _)).trans (g n1 n2 n3 k2 v2 k3 v3).symm)

/-! ### Splitting at positions -/

theorem split_at {α : Type} {l : List α} {i : ℕ} {a : α} (h : l[i]? = some a) :
    ∃ A R, l = A ++ a :: R ∧ A.length = i := by
  obtain ⟨hi, rfl⟩ := List.getElem?_eq_some_iff.1 h
  refine ⟨l.take i, l.drop (i + 1), ?_, ?_⟩
  · rw [← List.drop_eq_getElem_cons hi, List.take_append_drop]
  · rw [List.length_take]; omega

theorem split_two {α : Type} {l : List α} {i k : ℕ} {a b : α} (hik : i < k) (hi : l[i]? = some a)
    (hk : l[k]? = some b) :
    ∃ A B R, l = A ++ a :: (B ++ b :: R) ∧ A.length = i ∧ B.length = k - i - 1 := by
  obtain ⟨A, R, rfl, hA⟩ := split_at hi
  have : R[k - i - 1]? = some b := by
    rw [List.getElem?_append_right (by omega), hA] at hk
    obtain ⟨m, hm⟩ : ∃ m, k - i = m + 1 := ⟨k - i - 1, by omega⟩
    rw [hm, List.getElem?_cons_succ] at hk
    rw [hm]; exact hk
  obtain ⟨B, R', rfl, hB⟩ := split_at this
  exact ⟨A, B, R', rfl, hA, hB⟩

theorem set_two {α : Type} {A B R : List α} {a b a' b' : α} {i k : ℕ} (hA : A.length = i)
    (hik : i < k) (hB : B.length = k - i - 1) :
    ((A ++ a :: (B ++ b :: R)).set i a').set k b' = A ++ a' :: (B ++ b' :: R) := by
  rw [List.set_append_right _ _ (by omega), hA, Nat.sub_self, List.set_cons_zero,
    List.set_append_right _ _ (by omega), hA]
  obtain ⟨m, hm⟩ : ∃ m, k - i = m + 1 := ⟨k - i - 1, by omega⟩
  rw [hm, List.set_cons_succ, List.set_append_right _ _ (by omega)]
  have : m - B.length = 0 := by omega
  rw [this, List.set_cons_zero]

theorem mem_between {α : Type} {A B R : List α} {a b e : α} (he : e ∈ B) :
    ∃ j, A.length < j ∧ j < A.length + 1 + B.length ∧ (A ++ a :: (B ++ b :: R))[j]? = some e := by
  obtain ⟨m, hm, rfl⟩ := List.getElem_of_mem he
  refine ⟨A.length + 1 + m, by omega, by omega, ?_⟩
  rw [List.getElem?_append_right (by omega)]
  have : A.length + 1 + m - A.length = m + 1 := by omega
  rw [this, List.getElem?_cons_succ, List.getElem?_append_left hm, List.getElem?_eq_getElem hm]

/-! ### The per-qubit lists -/

/-- `dag.at(q).push_back(op)` for every used qubit (`addToDag`, 40-46); `none` = `std::out_of_range`. -/
def addToDag (n : ℕ) (dag : ℕ → List ℕ) (k : ℕ) (us : Finset ℕ) : Option (ℕ → List ℕ) :=
  if ∀ q ∈ us, q < n then some fun q => if q ∈ us then k :: dag q else dag q else none

/-- What the per-qubit lists know after `k` operations: every list is ordered by position, lists
only positions of operations on that qubit, and every earlier operation on a qubit that is not
listed there has been turned into an identity. -/
structure DagInv {P : Type} (ops : List (Op P)) (dag : ℕ → List ℕ) (k : ℕ) : Prop where
  sorted : ∀ q, (dag q).Pairwise (· > ·)
  sound : ∀ q j, j ∈ dag q → j < k ∧ ∃ o, ops[j]? = some o ∧ q ∈ o.usedQ
  complete : ∀ j o, j < k → ops[j]? = some o → ∀ q ∈ o.usedQ, j ∈ dag q ∨ o.type = .i

namespace DagInv

variable {P : Type} {ops : List (Op P)} {dag : ℕ → List ℕ} {k : ℕ}

theorem init : DagInv ops (fun _ => []) 0 :=
  ⟨fun _ => List.Pairwise.nil, fun q j h => by simp at h, fun j o h => by omega⟩

/-- `addToDag` for the current operation. -/
theorem add (h : DagInv ops dag k) {o : Op P} (ho : ops[k]? = some o) :
    DagInv ops (fun q => if q ∈ o.usedQ then k :: dag q else dag q) (k + 1) := by
  constructor
  · intro q
    split_ifs
    · exact List.Pairwise.cons (fun j hj => (h.sound q j hj).1) (h.sorted q)
    · exact h.sorted q
  · intro q j hj
    split_ifs at hj with hq
    · rcases List.mem_cons.1 hj with rfl | hj
      · exact ⟨by omega, o, ho, hq⟩
      · exact ⟨by have := (h.sound q j hj).1; omega, (h.sound q j hj).2⟩
    · exact ⟨by have := (h.sound q j hj).1; omega, (h.sound q j hj).2⟩
  · intro j o' hj ho' q hq
    rcases Nat.lt_or_ge j k with hlt | hge
    · rcases h.complete j o' hlt ho' q hq with h1 | h1
      · left
        split_ifs
        · exact List.mem_cons_of_mem _ h1
        · exact h1
      · exact Or.inr h1
    · have : j = k := by omega
      subst this
      rw [ho] at ho'
      injection ho' with ho'
      subst ho'
      left
      simp [hq]

/-- The current operation has become an identity and is not listed. -/
theorem skip (h : DagInv ops dag k) {o : Op P} (ho : ops[k]? = some o) (ht : o.type = .i) :
    DagInv ops dag (k + 1) := by
  refine ⟨h.sorted, fun q j hj => ⟨by have := (h.sound q j hj).1; omega, (h.sound q j hj).2⟩, ?_⟩
  intro j o' hj ho' q hq
  rcases Nat.lt_or_ge j k with hlt | hge
  · exact h.complete j o' hlt ho' q hq
  · have : j = k := by omega
    subst this
    rw [ho] at ho'
    injection ho' with ho'
    subst ho'
    exact Or.inr ht

/-- Operations not yet looked at may be changed. -/
theorem set_current (h : DagInv ops dag k) (o : Op P) : DagInv (ops.set k o) dag k := by
  refine ⟨h.sorted, ?_, ?_⟩
  · intro q j hj
    obtain ⟨h1, o', h2, h3⟩ := h.sound q j hj
    exact ⟨h1, o', by rw [List.getElem?_set_ne (by omega)]; exact h2, h3⟩
  · intro j o' hj ho'
    rw [List.getElem?_set_ne (by omega)] at ho'
    exact h.complete j o' hj ho'

/-- An operation may be replaced by one on the same qubits. -/
theorem set_same (h : DagInv ops dag k) {i : ℕ} {o o' : Op P} (ho : ops[i]? = some o)
    (hu : o'.usedQ = o.usedQ) (ht : o.type ≠ .i) : DagInv (ops.set i o') dag k := by
  have hi := (List.getElem?_eq_some_iff.1 ho).1
  refine ⟨h.sorted, ?_, ?_⟩
  · intro q j hj
    obtain ⟨h1, o2, h2, h3⟩ := h.sound q j hj
    refine ⟨h1, ?_⟩
    by_cases e : i = j
    · subst e
      rw [ho] at h2; injection h2 with h2; subst h2
      exact ⟨o', by rw [List.getElem?_set_self hi], hu ▸ h3⟩
    · exact ⟨o2, by rw [List.getElem?_set_ne e]; exact h2, h3⟩
  · intro j o2 hj ho2 q hq
    by_cases e : i = j
    · subst e
      rw [List.getElem?_set_self hi] at ho2; injection ho2 with ho2; subst ho2
      left
      exact (h.complete i o hj ho q (hu ▸ hq)).resolve_right ht
    · rw [List.getElem?_set_ne e] at ho2
      exact h.complete j o2 hj ho2 q hq

/-- The last operation on both of its qubits becomes an identity and is taken off the lists. -/
theorem kill (h : DagInv ops dag k) {i u v : ℕ} {lu lv : List ℕ} {o o' : Op P}
    (ho : ops[i]? = some o) (hu : o.usedQ = {u, v}) (du : dag u = i :: lu) (dv : dag v = i :: lv)
    (ht : o'.type = .i) : DagInv (ops.set i o') (update (update dag u lu) v lv) k := by
  have hi := (List.getElem?_eq_some_iff.1 ho).1
  have sub : ∀ q, (update (update dag u lu) v lv q).Sublist (dag q) := by
    intro q
    by_cases hv : q = v
    · subst hv; rw [Function.update_self, dv]; exact List.sublist_cons_self _ _
    · rw [Function.update_of_ne hv]
      by_cases hq : q = u
      · subst hq; rw [Function.update_self, du]; exact List.sublist_cons_self _ _
      · rw [Function.update_of_ne hq]
  have ni : ∀ q, i ∉ update (update dag u lu) v lv q := by
    intro q hq
    by_cases hv : q = v
    · subst hv
      rw [Function.update_self] at hq
      have := h.sorted q
      rw [dv] at this
      have := (List.pairwise_cons.1 this).1 i hq
      omega
    · rw [Function.update_of_ne hv] at hq
      by_cases hqu : q = u
      · subst hqu
        rw [Function.update_self] at hq
        have := h.sorted q
        rw [du] at this
        have := (List.pairwise_cons.1 this).1 i hq
        omega
      · rw [Function.update_of_ne hqu] at hq
        obtain ⟨-, o2, h2, h3⟩ := h.sound q i hq
        rw [ho] at h2; injection h2 with h2; subst h2
        rw [hu] at h3
        simp [hv, hqu] at h3
  refine ⟨fun q => (h.sorted q).sublist (sub q), ?_, ?_⟩
  · intro q j hj
    obtain ⟨h1, o2, h2, h3⟩ := h.sound q j ((sub q).subset hj)
    refine ⟨h1, o2, ?_, h3⟩
    rw [List.getElem?_set_ne (by rintro rfl; exact ni q hj)]
    exact h2
  · intro j o2 hj ho2 q hq
    by_cases e : i = j
    · subst e
      rw [List.getElem?_set_self hi] at ho2; injection ho2 with ho2; subst ho2
      exact Or.inr ht
    · rw [List.getElem?_set_ne e] at ho2
      rcases h.complete j o2 hj ho2 q hq with h1 | h1
      · left
        by_cases hv : q = v
        · subst hv; rw [Function.update_self]; rw [dv] at h1
          exact (List.mem_cons.1 h1).resolve_left (Ne.symm e)
        · rw [Function.update_of_ne hv]
          by_cases hqu : q = u
          · subst hqu; rw [Function.update_self]; rw [du] at h1
            exact (List.mem_cons.1 h1).resolve_left (Ne.symm e)
          · rw [Function.update_of_ne hqu]; exact h1
      · exact Or.inr h1

/-- Behind the last listed position only identities touch the qubit. -/
theorem after (h : DagInv ops dag k) {u i : ℕ} {l : List ℕ} (hu : dag u = i :: l) {j : ℕ} {o : Op P}
    (hij : i < j) (hjk : j < k) (ho : ops[j]? = some o) : o.type = .i ∨ u ∉ o.usedQ := by
  by_cases hq : u ∈ o.usedQ
  · rcases h.complete j o hjk ho u hq with h1 | h1
    · exfalso
      have hs := h.sorted u
      rw [hu] at h1 hs
      rcases List.mem_cons.1 h1 with rfl | h1
      · omega
      · have := (List.pairwise_cons.1 hs).1 j h1; omega
    · exact Or.inl h1
  · exact Or.inr hq

/-- Between the last two listed positions only identities touch the qubit. -/
theorem between (h : DagInv ops dag k) {u i m : ℕ} {l : List ℕ} (hu : dag u = m :: i :: l) {j : ℕ}
    {o : Op P} (hij : i < j) (hjm : j < m) (ho : ops[j]? = some o) : o.type = .i ∨ u ∉ o.usedQ := by
  by_cases hq : u ∈ o.usedQ
  · have hm : m < k := (h.sound u m (by rw [hu]; simp)).1
    rcases h.complete j o (by omega) ho u hq with h1 | h1
    · exfalso
      have hs := h.sorted u
      rw [hu] at h1 hs
      rcases List.mem_cons.1 h1 with rfl | h1
      · omega
      · rcases List.mem_cons.1 h1 with rfl | h1
        · omega
        · have := (List.pairwise_cons.1 (List.pairwise_cons.1 hs).2).1 j h1; omega
    · exact Or.inl h1
  · exact Or.inr hq

/-- Two operations on the same qubits that are both last are the same. -/
theorem last_unique (h : DagInv ops dag k) {u v i j : ℕ} {lu lv : List ℕ} {o o' : Op P}
    (hu : dag u = i :: lu) (hv : dag v = j :: lv) (ho : ops[i]? = some o) (ho' : ops[j]? = some o')
    (hvi : v ∈ o.usedQ) (huj : u ∈ o'.usedQ) (ht : o.type ≠ .i) (ht' : o'.type ≠ .i) : i = j := by
  have hi : i < k := (h.sound u i (by rw [hu]; simp)).1
  have hj : j < k := (h.sound v j (by rw [hv]; simp)).1
  have h1 := (h.complete i o hi ho v hvi).resolve_right ht
  have h2 := (h.complete j o' hj ho' u huj).resolve_right ht'
  have s1 := h.sorted u
  have s2 := h.sorted v
  rw [hu] at h2 s1
  rw [hv] at h1 s2
  rcases List.mem_cons.1 h1 with e | h1
  · exact e
  · rcases List.mem_cons.1 h2 with e | h2
    · exact e.symm
    · have a := (List.pairwise_cons.1 s1).1 j h2
      have b := (List.pairwise_cons.1 s2).1 i h1
      omega

end DagInv

/-! ### Recognising CNOTs and SWAPs -/

/-- The control and target of an `X` gate with exactly one, positive, control; `none` for every
other operation (`getType() != X || getNcontrols() != 1 || …type != Pos`).  The code reads the
target with `.at(0)`; an `X` gate without a target is not recognised by the model. -/
def cnot? {P : Type} : Op P → Option (ℕ × ℕ)
  | .std o =>
    if o.type = .x ∧ o.controls.card = 1 ∧ ∀ c ∈ o.controls, c.2 = true then
      o.targets.head?.map fun t => (o.controls.sup Prod.fst, t)
    else none
  | _ => none

theorem cnot?_eq_some {P : Type} {e : Op P} {c t : ℕ} (h : cnot? e = some (c, t)) :
    ∃ o : StdOp P, e = .std o ∧ o.type = .x ∧ o.controls = {(c, true)} ∧ o.targets.head? = some t := by
  match e with
  | .std o =>
    rw [cnot?] at h
    split_ifs at h with hc
    obtain ⟨h1, h2, h3⟩ := hc
    obtain ⟨t', ht, h⟩ := Option.map_eq_some_iff.1 h
    rw [Prod.mk.injEq] at h
    obtain ⟨⟨q, b⟩, hq⟩ := Finset.card_eq_one.1 h2
    have hb : b = true := h3 (q, b) (by rw [hq]; simp)
    refine ⟨o, rfl, h1, ?_, ht.trans (by rw [h.2])⟩
    rw [hq, hb] at h ⊢
    rw [← h.1]; simp
  | .compound _ _ => cases h
  | .measure _ _ => cases h
  | .reset _ => cases h
  | .classic _ _ => cases h

/-- A valid CNOT has one target, different from its control. -/
theorem cnot?_valid {e : Op ℝ} {c t : ℕ} (h : cnot? e = some (c, t)) (hv : e.Valid) :
    ∃ o : StdOp ℝ, e = .std o ∧ o.type = .x ∧ o.controls = {(c, true)} ∧ o.targets = [t] ∧ c ≠ t := by
  obtain ⟨o, rfl, h1, h2, h3⟩ := cnot?_eq_some h
  refine ⟨o, rfl, h1, h2, ?_⟩
  rw [Op.Valid] at hv
  obtain ⟨wf, f, hf⟩ := hv
  rcases StdOp.denote_cases hf with ⟨hb, -⟩ | ⟨hg, -⟩ | ⟨hs, q, M, e1, e2, -⟩ | ⟨h2', -⟩
  · rw [h1] at hb; cases hb
  · rw [h1] at hg; cases hg
  · rw [e1] at h3
    simp only [List.head?_cons, Option.some.injEq] at h3
    subst h3
    refine ⟨e1, ?_⟩
    rintro rfl
    have := wf.disj c (by rw [e1]; simp)
    rw [h2] at this
    exact this (by simp [ctrlQubits])
  · rw [h1] at h2'; exact absurd h2' (by decide)

/-- Give a standard operation a new type, targets and controls (`setGate`, `setTargets`,
`setControls`; the parameters stay). -/
def retype {P : Type} (ty : OpType) (ts : List ℕ) (cs : Finset Ctrl) : Op P → Op P
  | .std o => .std { o with type := ty, targets := ts, controls := cs }
  | e => e

/-- `setGate(I); clearControls()` — the targets stay. -/
def kill {P : Type} : Op P → Op P
  | .std o => .std { o with type := .i, controls := ∅ }
  | e => e

theorem used_cx {P : Type} {o : StdOp P} {c t : ℕ} (hc : o.controls = {(c, true)}) (ht : o.targets = [t]) :
    o.used = {c, t} := by
  ext q
  rw [StdOp.mem_used, ht, hc]
  simp [ctrlQubits, or_comm]

theorem used_swap {P : Type} {o : StdOp P} {a b : ℕ} (hc : o.controls = ∅) (ht : o.targets = [a, b]) :
    o.used = {a, b} := by
  ext q
  rw [StdOp.mem_used, ht, hc]
  simp [ctrlQubits]

/-! ### The state of a pass -/

/-- The operation list and the per-qubit lists of positions. -/
structure PassState (P : Type) where
  ops : List (Op P)
  dag : ℕ → List ℕ

/-- `addToDag(dag, &it)`. -/
def PassState.add {P : Type} (n : ℕ) (S : PassState P) (k : ℕ) (us : Finset ℕ) : Option (PassState P) :=
  (addToDag n S.dag k us).map fun d => { S with dag := d }

theorem modify_eq_set {α : Type} {l : List α} {i : ℕ} {a : α} {f : α → α} (h : l[i]? = some a) :
    l.modify i f = l.set i (f a) := by
  obtain ⟨hi, rfl⟩ := List.getElem?_eq_some_iff.1 h
  rw [List.modify_eq_set_getElem?, List.getElem?_eq_getElem hi]
  rfl

/-- What every operation in the list satisfies during a pass. -/
structure OpOk (n : ℕ) (e : Op ℝ) : Prop where
  plain : e.plain = true
  parts : PartsValid e
  valid : e.type ≠ .i → e.Valid
  range : ∀ q ∈ e.usedQ, q < n

/-- Invariant of a pass after `k` operations. -/
structure PassInv (n : ℕ) (ops0 : List (Op ℝ)) (S : PassState ℝ) (k : ℕ) : Prop where
  len : S.ops.length = ops0.length
  dag : DagInv S.ops S.dag k
  ok : ∀ e ∈ S.ops, OpOk n e
  sem : Eqv ops0 S.ops

theorem PassInv.add {n k : ℕ} {ops0 : List (Op ℝ)} {S : PassState ℝ} (h : PassInv n ops0 S k)
    {e : Op ℝ} (he : S.ops[k]? = some e) :
    ∃ S', S.add n k e.usedQ = some S' ∧ PassInv n ops0 S' (k + 1) := by
  have hr := (h.ok e (List.mem_of_getElem? he)).range
  refine ⟨{ S with dag := fun q => if q ∈ e.usedQ then k :: S.dag q else S.dag q }, ?_, ?_⟩
  · rw [PassState.add, addToDag, if_pos hr]; rfl
  · exact ⟨h.len, h.dag.add he, h.ok, h.sem⟩

theorem ok_set {n i : ℕ} {ops : List (Op ℝ)} (h : ∀ e ∈ ops, OpOk n e) {e : Op ℝ} (he : OpOk n e) :
    ∀ e' ∈ ops.set i e, OpOk n e' := by
  intro e' he'
  rcases List.mem_or_eq_of_mem_set he' with h1 | rfl
  · exact h e' h1
  · exact he

theorem opOk_std {n : ℕ} {s : StdOp ℝ} (hv : s.type ≠ .i → (Op.std s).Valid)
    (hr : ∀ q ∈ s.used, q < n) : OpOk n (.std s) :=
  ⟨rfl, trivial, hv, hr⟩

/-- The operations between `i` and `k` do not matter when both qubits' last operation is `i`. -/
theorem PassInv.avoids {n k : ℕ} {ops0 : List (Op ℝ)} {S : PassState ℝ} (h : PassInv n ops0 S k)
    {u v i : ℕ} {lu lv : List ℕ} (du : S.dag u = i :: lu) (dv : S.dag v = i :: lv) {j : ℕ}
    {e : Op ℝ} (hij : i < j) (hjk : j < k) (he : S.ops[j]? = some e) : Avoids {u, v} e := by
  have hp := Op.usedQ_plain e (h.ok e (List.mem_of_getElem? he)).plain
  rcases h.dag.after du hij hjk he with h1 | h1
  · exact Or.inl h1
  rcases h.dag.after dv hij hjk he with h2 | h2
  · exact Or.inl h2
  right
  rw [← hp, Finset.disjoint_left]
  intro q hq
  rw [Finset.mem_insert, Finset.mem_singleton] at hq
  rcases hq with rfl | rfl
  · exact h1
  · exact h2

theorem PassInv.avoids' {n k : ℕ} {ops0 : List (Op ℝ)} {S : PassState ℝ} (h : PassInv n ops0 S k)
    {u v i m : ℕ} {lu lv : List ℕ} (du : S.dag u = m :: i :: lu) (dv : S.dag v = m :: i :: lv) {j : ℕ}
    {e : Op ℝ} (hij : i < j) (hjk : j < m) (he : S.ops[j]? = some e) : Avoids {u, v} e := by
  have hp := Op.usedQ_plain e (h.ok e (List.mem_of_getElem? he)).plain
  rcases h.dag.between du hij hjk he with h1 | h1
  · exact Or.inl h1
  rcases h.dag.between dv hij hjk he with h2 | h2
  · exact Or.inl h2
  right
  rw [← hp, Finset.disjoint_left]
  intro q hq
  rw [Finset.mem_insert, Finset.mem_singleton] at hq
  rcases hq with rfl | rfl
  · exact h1
  · exact h2

/-- Dropped, or with a meaning and on the given qubits. -/
structure On (Q : Finset ℕ) (s : StdOp ℝ) : Prop where
  ok : Ok s
  used : s.type ≠ .i → s.used ⊆ Q

/-- Replace the last operation on two qubits together with the current one. -/
theorem PassInv.pair {n k : ℕ} {ops0 : List (Op ℝ)} {S : PassState ℝ} (h : PassInv n ops0 S k)
    {u v i : ℕ} {lu lv : List ℕ} (du : S.dag u = i :: lu) (dv : S.dag v = i :: lv)
    {s1 s2 n1 n2 : StdOp ℝ} (hi : S.ops[i]? = some (.std s1)) (hk : S.ops[k]? = some (.std s2))
    (h2 : On {u, v} s2) (k2 : On {u, v} n2) (he : Eqv [.std s1, .std s2] [.std n1, .std n2]) :
    Eqv ops0 ((S.ops.set i (.std n1)).set k (.std n2)) := by
  refine h.sem.trans ?_
  have hik : i < k := (h.dag.sound u i (by rw [du]; simp)).1
  obtain ⟨A, B, R, e, hA, hB⟩ := split_two hik hi hk
  have hav : ∀ e' ∈ B, Avoids {u, v} e' := by
    intro e' he'
    obtain ⟨j, j1, j2, j3⟩ := mem_between (A := A) (R := R) (a := Op.std s1) (b := Op.std s2) he'
    rw [← e] at j3
    exact h.avoids du dv (by omega) (by omega) j3
  rw [e, set_two hA hik hB]
  exact eqv_pair h2.ok k2.ok h2.used k2.used hav he

end MQT.Opt

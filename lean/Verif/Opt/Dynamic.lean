/-
Is a circuit dynamic?

Source in /repo: src/ir/QuantumComputation.cpp 1216-1255 (`isDynamicCircuit`, `isDynamic`).

`ub`: the vector of flags (of length `n`, the highest physical qubit of the initial layout plus one) is accessed outside of its
bounds. The qubits of a standard operation are looked up in ascending order until a measured one is found, so there is no such
access if there is a measured one. Symbolic operations are not modelled (for these the cast to a compound operation throws).
-/
import Verif.Common.Res
import Verif.Opt.Op

set_option autoImplicit false

namespace MQT.Opt.Dynamic

open MQT.IR

variable {P : Type}

mutual
/-- `isDynamicCircuit` with the set of measured qubits. -/
def dyn (n : ℕ) (M : Finset ℕ) : Op P → MQT.Res (Bool × Finset ℕ)
  | .std o =>
    if ∃ q ∈ o.used, q ∈ M then .ok (true, M)
    else if ∀ q ∈ o.used, q < n then .ok (false, M) else .ub
  | .measure qs _ => if ∀ q ∈ qs, q < n then .ok (false, M ∪ qs.toFinset) else .ub
  | .reset _ => .ok (true, M)
  | .classic _ _ => .ok (true, M)
  | .compound ops _ => dynL n M ops
/-- `any_of` over a list of operations. -/
def dynL (n : ℕ) (M : Finset ℕ) : List (Op P) → MQT.Res (Bool × Finset ℕ)
  | [] => .ok (false, M)
  | o :: l => (dyn n M o).bind fun r => if r.1 then .ok r else dynL n r.2 l
end

/-- `isDynamic`. -/
def isDynamic (n : ℕ) (ops : List (Op P)) : MQT.Res Bool := (dynL n ∅ ops).bind fun r => .ok r.1

/-! ### Flattened circuits -/

mutual
/-- The operations of which an operation consists. -/
def flat : Op P → List (Op P)
  | .std o => [.std o]
  | .measure qs cs => [.measure qs cs]
  | .reset qs => [.reset qs]
  | .classic p o => [.classic p o]
  | .compound ops _ => flatL ops
def flatL : List (Op P) → List (Op P)
  | [] => []
  | o :: l => flat o ++ flatL l
end

mutual
theorem exec_flat (o : Op ℝ) : run (flat o) = exec o := by
  match o with
  | .std o => rw [flat, run_singleton]
  | .measure qs cs => rw [flat, run_singleton]
  | .reset qs => rw [flat, run_singleton]
  | .classic p o => rw [flat, run_singleton]
  | .compound ops b => rw [flat, run_compound, run_flat ops]
theorem run_flat (l : List (Op ℝ)) : run (flatL l) = run l := by
  match l with
  | [] => rfl
  | o :: l =>
    funext c
    rw [flatL, run_append, run_cons, exec_flat o, run_flat l]
end

/-- The qubits measured in a list of operations that are not compound. -/
def measured : List (Op P) → Finset ℕ
  | [] => ∅
  | .measure qs _ :: l => qs.toFinset ∪ measured l
  | _ :: l => measured l

/-- An operation that makes a circuit dynamic, `M` being measured before. -/
def Makes (M : Finset ℕ) : Op P → Prop
  | .std o => ∃ q ∈ o.used, q ∈ M
  | .measure _ _ => False
  | .reset _ => True
  | .classic _ _ => True
  | .compound _ _ => False

theorem measured_append (A B : List (Op P)) : measured (A ++ B) = measured A ∪ measured B := by
  induction A with
  | nil => simp [measured]
  | cons o A ih =>
    cases o <;> simp only [List.cons_append, measured, ih, Finset.union_assoc]

/-- Some operation of the list makes it dynamic. -/
def Dyn (M : Finset ℕ) (l : List (Op P)) : Prop := ∃ A o B, l = A ++ o :: B ∧ Makes (M ∪ measured A) o

theorem dyn_cons (M : Finset ℕ) (o : Op P) (l : List (Op P)) :
    Dyn M (o :: l) ↔ Makes M o ∨ Dyn (M ∪ measured [o]) l := by
  constructor
  · rintro ⟨A, x, B, e, h⟩
    cases A with
    | nil =>
      rw [List.nil_append, List.cons.injEq] at e
      left
      rw [e.1]
      simpa [measured] using h
    | cons a A =>
      rw [List.cons_append, List.cons.injEq] at e
      right
      refine ⟨A, x, B, e.2, ?_⟩
      rw [show a :: A = [a] ++ A from rfl, measured_append, ← Finset.union_assoc, ← e.1] at h
      exact h
  · rintro (h | ⟨A, x, B, rfl, h⟩)
    · exact ⟨[], o, l, rfl, by simpa [measured] using h⟩
    · refine ⟨o :: A, x, B, rfl, ?_⟩
      rw [show o :: A = [o] ++ A from rfl, measured_append, ← Finset.union_assoc]
      exact h

theorem dyn_append (M : Finset ℕ) (l l' : List (Op P)) : Dyn M (l ++ l') ↔ Dyn M l ∨ Dyn (M ∪ measured l) l' := by
  induction l generalizing M with
  | nil =>
    have : ¬ Dyn M ([] : List (Op P)) := by rintro ⟨A, o, B, e, -⟩; simp at e
    simp [measured, this]
  | cons o l ih =>
    rw [List.cons_append, dyn_cons, dyn_cons, ih, show o :: l = [o] ++ l from rfl, measured_append, Finset.union_assoc, or_assoc]

/-- What the code computes for a list. -/
def Computes (M : Finset ℕ) (l : List (Op P)) : MQT.Res (Bool × Finset ℕ) → Prop
  | .ok (true, _) => Dyn M l
  | .ok (false, M') => ¬ Dyn M l ∧ M' = M ∪ measured l
  | _ => False

theorem not_dyn_nil (M : Finset ℕ) : ¬ Dyn M ([] : List (Op P)) := by
  rintro ⟨A, o, B, e, -⟩; simp at e

mutual
theorem dyn_spec (n : ℕ) (M : Finset ℕ) (o : Op P) (h : ∀ q ∈ o.acts, q < n) : Computes M (flat o) (dyn n M o) := by
  match o with
  | .std o =>
    rw [dyn]
    by_cases h1 : ∃ q ∈ o.used, q ∈ M
    · rw [if_pos h1]
      exact (dyn_cons M _ _).2 (Or.inl h1)
    · rw [if_neg h1, if_pos (by simpa [Op.acts] using h)]
      refine ⟨fun hd => ?_, by simp [flat, measured]⟩
      rcases (dyn_cons M _ _).1 hd with h | h
      · exact h1 h
      · exact not_dyn_nil _ h
  | .measure qs cs =>
    rw [dyn, if_pos (by simpa [Op.acts] using h)]
    refine ⟨fun hd => ?_, by simp [flat, measured]⟩
    rcases (dyn_cons M _ _).1 hd with h | h
    · exact h
    · exact not_dyn_nil _ h
  | .reset qs => rw [dyn]; exact (dyn_cons M _ _).2 (Or.inl trivial)
  | .classic p o => rw [dyn]; exact (dyn_cons M _ _).2 (Or.inl trivial)
  | .compound ops b =>
    rw [dyn, flat]
    exact dynL_spec n M ops (by simpa [Op.acts] using h)
theorem dynL_spec (n : ℕ) (M : Finset ℕ) (l : List (Op P)) (h : ∀ q ∈ Op.actsL l, q < n) :
    Computes M (flatL l) (dynL n M l) := by
  match l with
  | [] => rw [dynL, flatL]; exact ⟨not_dyn_nil M, by simp [measured]⟩
  | o :: l =>
    rw [Op.actsL] at h
    have h1 := dyn_spec n M o fun q hq => h q (Finset.mem_union_left _ hq)
    rw [dynL, flatL]
    revert h1
    rcases dyn n M o with _ | _ | ⟨_ | _, M'⟩
    · exact False.elim
    · exact False.elim
    · rintro ⟨h1, rfl⟩
      have h2 := dynL_spec n (M ∪ measured (flat o)) l fun q hq => h q (Finset.mem_union_right _ hq)
      simp only [MQT.Res.bind, Bool.false_eq_true, if_false]
      revert h2
      rcases dynL n (M ∪ measured (flat o)) l with _ | _ | ⟨_ | _, M'⟩
      · exact False.elim
      · exact False.elim
      · rintro ⟨h2, rfl⟩
        refine ⟨fun hd => ?_, by rw [measured_append, Finset.union_assoc]⟩
        rcases (dyn_append M _ _).1 hd with h | h
        · exact h1 h
        · exact h2 h
      · exact fun h2 => (dyn_append M _ _).2 (Or.inr h2)
    · intro h1
      simp only [MQT.Res.bind, if_true]
      exact (dyn_append M _ _).2 (Or.inl h1)
end

/-! ### Moving measurements to the end -/

/-- The operation is a measurement. -/
def isMeas : Op P → Bool
  | .measure _ _ => true
  | _ => false

/-- A gate on other qubits can be done before measurements. -/
theorem run_gate_first (o : StdOp ℝ) (B : List (Op ℝ)) (hm : ∀ b ∈ B, isMeas b = true) (hd : ∀ q ∈ o.used, q ∉ measured B) :
    run (B ++ [.std o]) = run (.std o :: B) := by
  cases hf : o.denote with
  | some f =>
    refine run_move hf B fun e he => ?_
    induction B with
    | nil => simp at he
    | cons b B ih =>
      have hb := hm b List.mem_cons_self
      cases b with
      | measure qs cs =>
        rcases List.mem_cons.1 he with rfl | he
        · rw [Op.acts, Finset.disjoint_left]
          exact fun q hq hq' => hd q hq (by rw [measured]; exact Finset.mem_union_left _ hq')
        · exact ih (fun b hb => hm b (List.mem_cons_of_mem _ hb))
            (fun q hq hq' => hd q hq (by rw [measured]; exact Finset.mem_union_right _ hq')) he
      | _ => simp [isMeas] at hb
  | none =>
    funext c
    have h1 : ∀ c, exec (.std o) c = none := fun c => by rw [exec, hf]; rfl
    rw [run_append, run_cons, h1]
    cases run B c with
    | none => rfl
    | some c' => show run [.std o] c' = none; rw [run_singleton, h1]

mutual
theorem flat_no_compound (o : Op P) : ∀ x ∈ flat o, ∀ ops b, x ≠ .compound ops b := by
  match o with
  | .std o => simp [flat]
  | .measure qs cs => simp [flat]
  | .reset qs => simp [flat]
  | .classic p o => simp [flat]
  | .compound ops b => rw [flat]; exact flatL_no_compound ops
theorem flatL_no_compound (l : List (Op P)) : ∀ x ∈ flatL l, ∀ ops b, x ≠ .compound ops b := by
  match l with
  | [] => simp [flatL]
  | o :: l =>
    rw [flatL]
    intro x hx
    rcases List.mem_append.1 hx with hx | hx
    · exact flat_no_compound o x hx
    · exact flatL_no_compound l x hx
end

/-- Measurements `B` first, then operations that do not make it dynamic: the gates can be done first. -/
theorem run_sorted (B l : List (Op ℝ)) (hB : ∀ b ∈ B, isMeas b = true) (hd : ¬ Dyn (measured B) l)
    (hc : ∀ x ∈ l, ∀ ops b, x ≠ .compound ops b) :
    run (B ++ l) = run (l.filter (fun o => !isMeas o) ++ (B ++ l.filter isMeas)) := by
  induction l generalizing B with
  | nil => simp
  | cons o l ih =>
    rw [dyn_cons, not_or] at hd
    have hc' : ∀ x ∈ l, ∀ ops b, x ≠ .compound ops b := fun x hx => hc x (List.mem_cons_of_mem _ hx)
    cases o with
    | measure qs cs =>
      have h1 := ih (B ++ [.measure qs cs]) (fun b hb => by
        rcases List.mem_append.1 hb with hb | hb
        · exact hB b hb
        · rw [List.mem_singleton.1 hb]; rfl) (by rw [measured_append]; exact hd.2) hc'
      have e2 : (Op.measure qs cs :: l).filter (fun o => !isMeas o) = l.filter fun o : Op ℝ => !isMeas o :=
        List.filter_cons_of_neg (by simp [isMeas])
      have e3 : (Op.measure qs cs :: l).filter isMeas = .measure qs cs :: l.filter (isMeas (P := ℝ)) :=
        List.filter_cons_of_pos rfl
      rw [e2, e3]
      rw [List.append_assoc, List.append_assoc] at h1
      exact h1
    | std s =>
      have hu : ∀ q ∈ s.used, q ∉ measured B := fun q hq hq' => hd.1 ⟨q, hq, hq'⟩
      have h1 := ih B hB (by simpa [measured] using hd.2) hc'
      have h2 := run_gate_first s B hB hu
      have e1 : B ++ .std s :: l = (B ++ [.std s]) ++ l := by simp
      rw [e1, run_append_congr (a' := .std s :: B) h2 rfl]
      have e2 : (Op.std s :: l).filter (fun o => !isMeas o) = .std s :: l.filter fun o => !isMeas o :=
        List.filter_cons_of_pos rfl
      have e3 : (Op.std s :: l).filter isMeas = l.filter isMeas := List.filter_cons_of_neg (by simp [isMeas])
      rw [e2, e3]
      funext c
      rw [List.cons_append, List.cons_append, run_cons, run_cons, h1]
    | reset qs => exact absurd trivial hd.1
    | classic p o => exact absurd trivial hd.1
    | compound ops b => exact absurd rfl (hc _ List.mem_cons_self ops b)

end MQT.Opt.Dynamic

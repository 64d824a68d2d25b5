/-
C106: removing operations by type and number of qubits.
-/
import Verif.Opt.RemoveOp
import Verif.Props.Opt

set_option autoImplicit false

namespace MQT.Opt

open MQT.IR

variable {P : Type}

/-- The operations to be removed: those of one of the types, with `n` qubits if `n` is not zero. -/
def Doomed (T : List OpType) (n : ℕ) (o : Op P) : Prop := o.type ∈ T ∧ (n ≠ 0 → o.usedQ.card = n)

instance (T : List OpType) (n : ℕ) : DecidablePred (Doomed (P := P) T n) := fun _ => inferInstanceAs (Decidable (_ ∧ _))

theorem hit_iff {T : List OpType} {n : ℕ} {o : Op P} : hit T n o = true ↔ Doomed T n o := by
  simp only [hit, Doomed, Bool.and_eq_true, decide_eq_true_eq, Bool.or_eq_true]
  tauto

theorem filter_hit (T : List OpType) (n : ℕ) (l : List (Op P)) :
    (l.filter fun o => !hit T n o) = l.filter fun o => decide (¬ Doomed T n o) := by
  refine List.filter_congr fun o _ => ?_
  by_cases h : Doomed T n o
  · simp [h, hit_iff.2 h]
  · have : hit T n o = false := by rw [← Bool.not_eq_true, hit_iff]; exact h
    simp [h, this]

theorem removeOp1_doomed {T : List OpType} {n : ℕ} {o : Op P} (h : Doomed T n o) : removeOp1 T n o = [] := by
  unfold removeOp1
  exact if_pos (hit_iff.2 h)

theorem removeOp1_leaf {T : List OpType} {n : ℕ} {o : Op P} (h : ¬ Doomed T n o) (hl : isLeaf o = true) : removeOp1 T n o = [o] := by
  unfold removeOp1
  rw [if_neg (by rw [hit_iff]; exact h)]
  cases o <;> first | rfl | cases hl

theorem removeOp1_compound {T : List OpType} {n : ℕ} {ops : List (Op P)} {cu : Bool} (h : ¬ Doomed T n (.compound ops cu)) :
    removeOp1 T n (.compound ops cu) = regroup cu (ops.filter fun o => decide (¬ Doomed T n o)) := by
  unfold removeOp1
  rw [if_neg (by rw [hit_iff]; exact h)]
  simp only [filter_hit]

theorem elemsL_regroup (cu : Bool) (l : List (Op P)) : elemsL (regroup cu l) = elemsL l := by
  match l with
  | [] => rfl
  | [o] => rfl
  | a :: b :: l => simp [regroup, elemsL, Op.elems]

theorem compound_spared {T : List OpType} (hT : OpType.compound ∉ T) {n : ℕ} {ops : List (Op P)} {cu : Bool} : ¬ Doomed T n (.compound ops cu) :=
  fun h => hT h.1

/-- **C106.** Exactly the operations asked for are removed, and the others stay in order, if no compound operation is in another.
Missing from C106: compound operations in compound operations (`c106_nested`). -/
theorem c106_exact_partial {T : List OpType} (hT : OpType.compound ∉ T) (n : ℕ) {l : List (Op P)} (hl : ∀ o ∈ l, shallow o = true) :
    elemsL (removeOperation T n l) = (elemsL l).filter fun o => decide (¬ Doomed T n o) := by
  induction l with
  | nil => rfl
  | cons o l ih =>
    rw [removeOperation, List.flatMap_cons, elemsL_append, elemsL, List.filter_append]
    congr 1
    · by_cases h : isLeaf o = true
      · rw [elems_leaf h]
        by_cases hd : Doomed T n o
        · simp [removeOp1_doomed hd, elemsL, hd]
        · rw [removeOp1_leaf hd h, elemsL, elems_leaf h]
          simp [elemsL, hd]
      · cases o with
        | compound ops cu =>
          have hs : ∀ o ∈ ops, isLeaf o = true := List.all_eq_true.1 (hl (.compound ops cu) (by simp))
          rw [removeOp1_compound (compound_spared hT), elemsL_regroup, Op.elems, elemsL_leaves hs,
            elemsL_leaves fun o ho => hs o (List.mem_filter.1 ho).1]
        | std o => exact absurd rfl h
        | measure q c => exact absurd rfl h
        | reset q => exact absurd rfl h
        | classic p o => exact absurd rfl h
    · exact ih fun o ho => hl o (by simp [ho])

theorem elemsL_filter_sub (p : Op P → Bool) (l : List (Op P)) : (elemsL (l.filter p)).Sublist (elemsL l) := by
  induction l with
  | nil => exact .refl _
  | cons o l ih =>
    by_cases h : p o = true
    · rw [List.filter_cons_of_pos h, elemsL, elemsL]
      exact (List.Sublist.refl _).append ih
    · rw [List.filter_cons_of_neg h, elemsL]
      exact ih.trans (List.sublist_append_right _ _)

theorem elems_doomed {T : List OpType} (hT : OpType.compound ∉ T) {n : ℕ} {o : Op P} (h : Doomed T n o) : Op.elems o = [o] := by
  cases o with
  | compound ops cu => exact absurd h (compound_spared hT)
  | std o => rfl
  | measure q c => rfl
  | reset q => rfl
  | classic p o => rfl

theorem filter_elemsL_sub {T : List OpType} (hT : OpType.compound ∉ T) (n : ℕ) (l : List (Op P)) :
    ((elemsL l).filter fun o => decide (¬ Doomed T n o)).Sublist (elemsL (l.filter fun o => decide (¬ Doomed T n o))) := by
  induction l with
  | nil => exact .refl _
  | cons o l ih =>
    rw [elemsL, List.filter_append]
    by_cases h : Doomed T n o
    · rw [elems_doomed hT h, List.filter_cons_of_neg (l := l) (by simp [h])]
      simpa [h] using ih
    · rw [List.filter_cons_of_pos (l := l) (by simp [h]), elemsL]
      exact List.filter_sublist.append ih

/-- **C106.** In any circuit nothing is lost that should stay, nothing is added, and the order is kept. -/
theorem c106_between {T : List OpType} (hT : OpType.compound ∉ T) (n : ℕ) (l : List (Op P)) :
    ((elemsL l).filter fun o => decide (¬ Doomed T n o)).Sublist (elemsL (removeOperation T n l)) ∧
      (elemsL (removeOperation T n l)).Sublist (elemsL l) := by
  induction l with
  | nil => exact ⟨.refl _, .refl _⟩
  | cons o l ih =>
    rw [removeOperation, List.flatMap_cons, elemsL_append, elemsL, List.filter_append]
    have key : ((Op.elems o).filter fun o => decide (¬ Doomed T n o)).Sublist (elemsL (removeOp1 T n o)) ∧
        (elemsL (removeOp1 T n o)).Sublist (Op.elems o) := by
      by_cases hd : Doomed T n o
      · rw [removeOp1_doomed hd, elems_doomed hT hd]
        simp [elemsL, hd]
      · by_cases h : isLeaf o = true
        · rw [removeOp1_leaf hd h, elemsL, elems_leaf h]
          simp [elemsL, hd]
        · cases o with
          | compound ops cu =>
            rw [removeOp1_compound hd, elemsL_regroup, Op.elems]
            exact ⟨filter_elemsL_sub hT n ops, elemsL_filter_sub _ ops⟩
          | std o => exact absurd rfl h
          | measure q c => exact absurd rfl h
          | reset q => exact absurd rfl h
          | classic p o => exact absurd rfl h
    exact ⟨key.1.append ih.1, key.2.append ih.2⟩

/-- **C106.** Compound operations are removed as a whole if they are asked for. -/
theorem c106_compound {T : List OpType} (hT : OpType.compound ∈ T) (l : List (Op P)) :
    removeOperation T 0 l = l.filter fun o => decide (o.type ∉ T) := by
  induction l with
  | nil => rfl
  | cons o l ih =>
    rw [removeOperation, List.flatMap_cons]
    change _ ++ removeOperation T 0 l = _
    rw [ih]
    by_cases h : o.type ∈ T
    · rw [removeOp1_doomed ⟨h, fun h => absurd rfl h⟩, List.filter_cons_of_neg (by simp [h])]
      rfl
    · have hl : isLeaf o = true := by
        cases o with
        | compound ops cu => exact absurd hT h
        | std o => rfl
        | measure q c => rfl
        | reset q => rfl
        | classic p o => rfl
      rw [removeOp1_leaf (fun hd => h hd.1) hl, List.filter_cons_of_pos (by simp [h])]
      rfl

/-- **C106.** No operation of the result is one to be removed, and its compound operations have two parts or more.
Missing from C106: compound operations in compound operations (`c106_nested`). -/
theorem c106_top_partial {T : List OpType} (hT : OpType.compound ∉ T) (n : ℕ) {l : List (Op P)} (hl : ∀ o ∈ l, shallow o = true) :
    ∀ o ∈ removeOperation T n l, ¬ Doomed T n o ∧ ∀ ops cu, o = .compound ops cu → 2 ≤ ops.length ∧ ∀ p ∈ ops, ¬ Doomed T n p := by
  intro o ho
  obtain ⟨a, ha, ho⟩ := List.mem_flatMap.1 ho
  by_cases hd : Doomed T n a
  · rw [removeOp1_doomed hd] at ho
    cases ho
  by_cases h : isLeaf a = true
  · rw [removeOp1_leaf hd h, List.mem_singleton] at ho
    subst ho
    exact ⟨hd, fun ops cu e => by subst e; cases h⟩
  · cases a with
    | compound ops cu =>
      rw [removeOp1_compound hd] at ho
      have hs : ∀ o ∈ ops, isLeaf o = true := List.all_eq_true.1 (hl (.compound ops cu) ha)
      have hf : ∀ p ∈ ops.filter fun o => decide (¬ Doomed T n o), isLeaf p = true ∧ ¬ Doomed T n p := fun p hp =>
        ⟨hs p (List.mem_filter.1 hp).1, by simpa using (List.mem_filter.1 hp).2⟩
      generalize ops.filter (fun o => decide (¬ Doomed T n o)) = r at ho hf
      match r with
      | [] => cases ho
      | [x] =>
        rw [regroup, List.mem_singleton] at ho
        subst ho
        exact ⟨(hf o (by simp)).2, fun ops cu e => by subst e; have := (hf (.compound ops cu) (by simp)).1; cases this⟩
      | x :: y :: r =>
        rw [regroup, List.mem_singleton] at ho
        subst ho
        refine ⟨compound_spared hT, fun ops' cu' e => ?_⟩
        cases e
        exact ⟨by simp, fun p hp => (hf p hp).2⟩
    | std o => exact absurd rfl h
    | measure q c => exact absurd rfl h
    | reset q => exact absurd rfl h
    | classic p o => exact absurd rfl h

/-- **C106.** Doing it again changes nothing.
Missing from C106: compound operations in compound operations (`c106_nested`). -/
theorem c106_again_partial {T : List OpType} (hT : OpType.compound ∉ T) (n : ℕ) {l : List (Op P)} (hl : ∀ o ∈ l, shallow o = true) :
    removeOperation T n (removeOperation T n l) = removeOperation T n l := by
  have key : ∀ r : List (Op P), (∀ o ∈ r, ¬ Doomed T n o ∧ ∀ ops cu, o = .compound ops cu → 2 ≤ ops.length ∧ ∀ p ∈ ops, ¬ Doomed T n p) →
      removeOperation T n r = r := by
    intro r
    induction r with
    | nil => intro _; rfl
    | cons o r ih =>
      intro h
      obtain ⟨h1, h2⟩ := h o (by simp)
      have e : removeOp1 T n o = [o] := by
        by_cases hl : isLeaf o = true
        · exact removeOp1_leaf h1 hl
        · cases o with
          | compound ops cu =>
            obtain ⟨h3, h4⟩ := h2 ops cu rfl
            rw [removeOp1_compound h1, List.filter_eq_self.2 fun p hp => by simpa using h4 p hp]
            match ops, h3 with
            | a :: b :: l, _ => rfl
          | std o => exact absurd rfl hl
          | measure q c => exact absurd rfl hl
          | reset q => exact absurd rfl hl
          | classic p o => exact absurd rfl hl
      rw [removeOperation, List.flatMap_cons, e]
      exact congrArg (o :: ·) (ih fun o ho => h o (by simp [ho]))
  exact key _ (c106_top_partial hT n hl)

theorem run_filter {T : List OpType} {n : ℕ} {l : List (Op ℝ)} (h : ∀ o ∈ l, Doomed T n o → exec o = some) :
    run (l.filter fun o => decide (¬ Doomed T n o)) = run l := by
  induction l with
  | nil => rfl
  | cons o l ih =>
    have ih := ih fun o ho => h o (by simp [ho])
    funext c
    by_cases hd : Doomed T n o
    · rw [List.filter_cons_of_neg (by simp [hd]), ih, run_cons, h o (by simp) hd]
      rfl
    · rw [List.filter_cons_of_pos (by simp [hd]), run_cons, run_cons, ih]

/-- The operations looked at: those of the circuit, and the parts of its compound operations. -/
def looked (l : List (Op P)) : List (Op P) := l.flatMap fun o => match o with
  | .compound ops cu => .compound ops cu :: ops
  | o => [o]

/-- **C106.** Removing operations that do nothing keeps the meaning, in any circuit. -/
theorem c106_meaning (T : List OpType) (n : ℕ) {l : List (Op ℝ)} (h : ∀ o ∈ looked l, Doomed T n o → exec o = some) :
    run (removeOperation T n l) = run l := by
  induction l with
  | nil => rfl
  | cons o l ih =>
    have ih := ih fun o ho => h o (by rw [looked, List.flatMap_cons, List.mem_append]; exact .inr ho)
    have e : run (removeOp1 T n o) = exec o := by
      by_cases hd : Doomed T n o
      · have : o ∈ looked (o :: l) := by
          rw [looked, List.flatMap_cons, List.mem_append]
          refine .inl ?_
          cases o <;> simp
        rw [removeOp1_doomed hd, h o this hd]
        funext c
        rw [run_nil]
      · by_cases hl : isLeaf o = true
        · rw [removeOp1_leaf hd hl, run_singleton]
        · cases o with
          | compound ops cu =>
            rw [removeOp1_compound hd, run_compound, ← run_elems, elemsL_regroup, run_elems]
            refine run_filter fun p hp => h p ?_
            rw [looked, List.flatMap_cons, List.mem_append]
            exact .inl (by simp [hp])
          | std o => exact absurd rfl hl
          | measure q c => exact absurd rfl hl
          | reset q => exact absurd rfl hl
          | classic p o => exact absurd rfl hl
    funext c
    rw [removeOperation, List.flatMap_cons, run_append, run_cons, e]
    change (exec o c).bind (run (removeOperation T n l)) = _
    rw [ih]

/-- **C106.** `removeIdentities` is the removal of the identities on any number of qubits. -/
theorem c106_identities (l : List (Op P)) : removeOperation [.i] 0 l = removeIdentities l := by
  rw [removeOperation, removeIdentities]
  refine List.flatMap_congr fun o _ => ?_
  have hh : ∀ o : Op P, hit [.i] 0 o = decide (o.type = .i) := fun o => by simp [hit]
  cases o with
  | compound ops cu =>
    have : (ops.filter fun o => !hit [.i] 0 o) = ops.filter fun o => o.type ≠ .i := List.filter_congr fun o _ => by simp [hh]
    unfold removeOp1
    rw [if_neg (by simp [hh, Op.type])]
    simp only [this, removeIdentities1]
  | std o => simp [removeOp1, removeIdentities1, hh]
  | measure q c => simp [removeOp1, removeIdentities1, hh, Op.type]
  | reset q => simp [removeOp1, removeIdentities1, hh, Op.type]
  | classic p o => simp [removeOp1, removeIdentities1, hh, Op.type]

/-! ### Examples and disagreements -/

/-- Identities on their own, in a compound operation, and in one in another. -/
def nestedIds : List (Op ℝ) := [.compound [gate .i [0], .compound [gate .i [0], gate .x [1]] false] false]

/-- **C106 fails.** Identities in a compound operation in another one stay, and removing them again does remove them. -/
theorem c106_nested : removeOperation [.i] 0 nestedIds = [.compound [gate .i [0], gate .x [1]] false] ∧
    removeOperation [.i] 0 (removeOperation [.i] 0 nestedIds) = [gate .x [1]] := ⟨rfl, rfl⟩

/-- An X gate, a controlled one, a compound operation, a measurement and a classically controlled X gate. -/
def mixed (p : (ℕ → Bool) → Bool) : List (Op ℝ) :=
  [gate .x [0], .std { type := .x, controls := {(1, true)}, targets := [0] },
   .compound [gate .y [0], gate .x [1], gate .z [1]] true, .compound [gate .x [0], gate .h [1]] false, .compound [gate .x [2], gate .x [0]] false,
   .measure [0] [0], .classic p (gate .x [0])]

example (p : (ℕ → Bool) → Bool) : removeOperation [.x] 0 (mixed p) =
    [.compound [gate .y [0], gate .z [1]] true, gate .h [1], .measure [0] [0], .classic p (gate .x [0])] := rfl

/-- With one qubit only. -/
example (p : (ℕ → Bool) → Bool) : removeOperation [.x, .y] 1 (mixed p) =
    [.std { type := .x, controls := {(1, true)}, targets := [0] }, gate .z [1], gate .h [1], .measure [0] [0], .classic p (gate .x [0])] := rfl

/-- With two. -/
example (p : (ℕ → Bool) → Bool) : removeOperation [.x] 2 (mixed p) = gate .x [0] :: (mixed p).drop 2 := rfl

example (p : (ℕ → Bool) → Bool) : removeOperation [.compound, .measure] 0 (mixed p) = (mixed p).take 2 ++ [.classic p (gate .x [0])] := rfl

example (p : (ℕ → Bool) → Bool) : removeOperation [.classicControlled] 1 (mixed p) = (mixed p).take 6 := rfl

example (p : (ℕ → Bool) → Bool) : ∀ o ∈ mixed p, shallow o = true := by simp [mixed, shallow, isLeaf, gate]

end MQT.Opt

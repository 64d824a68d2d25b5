/-
Circuits: operations (including nested compound operations), their meaning, inversion,
and the layout-aware meaning of a `QuantumComputation`.

Sources:
* `src/ir/operations/CompoundOperation.cpp` 200-206 (`commutesAtQubit`), 246-251 (`invert`);
* `src/ir/operations/StandardOperation.cpp` 497-501 (dispatch to the compound operation);
* `src/ir/QuantumComputation.cpp` 547-561 (`invert`), 1301-1310 (`gphase`);
* `src/dd/Operations.cpp` 169-181 (`getDD` for compound operations).

Not modelled here: classically controlled, symbolic and non-unitary operations (they have their
own files).
-/
import Verif.IR.Commute
import Mathlib.Algebra.Order.Floor.Ring
import Mathlib.Data.List.Induction

set_option autoImplicit false
set_option linter.unusedSectionVars false

namespace MQT.IR

open Real

/-- Unitary operations: standard operations and (nested) compound operations. -/
inductive UOp (P : Type)
  | std (o : StdOp P)
  | compound (ops : List (UOp P))

namespace UOp

variable {P : Type}

/-- The standard operations contained in an operation, in order. -/
def leaves : UOp P → List (StdOp P)
  | std o => [o]
  | compound ops => ops.attach.flatMap fun ⟨o, _⟩ => o.leaves

/-- The standard operations of a sequence of operations, in order. -/
def leavesL (l : List (UOp P)) : List (StdOp P) := l.flatMap leaves

@[simp] theorem leaves_std (o : StdOp P) : (std o).leaves = [o] := by rw [leaves]

@[simp] theorem leaves_compound (l : List (UOp P)) : (compound l).leaves = leavesL l := by
  rw [leaves, leavesL]
  conv_rhs => rw [← List.attach_map_subtype_val l]
  rw [List.flatMap_map]

end UOp

/-- Meaning of a sequence of standard operations, first operation first. -/
noncomputable def denoteSeq : List (StdOp ℝ) → Option (State → State)
  | [] => some fun ψ => ψ
  | o :: l => match o.denote, denoteSeq l with
    | some f, some g => some fun ψ => g (f ψ)
    | _, _ => none

theorem denoteSeq_cons {o : StdOp ℝ} {l : List (StdOp ℝ)} {f : State → State}
    (h : denoteSeq (o :: l) = some f) :
    ∃ g r, o.denote = some g ∧ denoteSeq l = some r ∧ f = fun ψ => r (g ψ) := by
  simp only [denoteSeq] at h
  split at h
  · rename_i g r h1 h2; exact ⟨g, r, h1, h2, (Option.some.inj h).symm⟩
  · cases h

theorem denoteSeq_cons_of {o : StdOp ℝ} {l : List (StdOp ℝ)} {g r : State → State}
    (h1 : o.denote = some g) (h2 : denoteSeq l = some r) :
    denoteSeq (o :: l) = some fun ψ => r (g ψ) := by
  simp only [denoteSeq, h1, h2]

theorem denoteSeq_append {l l' : List (StdOp ℝ)} {f g : State → State}
    (hf : denoteSeq l = some f) (hg : denoteSeq l' = some g) :
    denoteSeq (l ++ l') = some fun ψ => g (f ψ) := by
  induction l generalizing f with
  | nil => simp only [denoteSeq, Option.some.injEq] at hf; subst hf; simpa using hg
  | cons o l ih =>
    obtain ⟨a, r, h1, h2, rfl⟩ := denoteSeq_cons hf
    rw [List.cons_append]
    have := denoteSeq_cons_of h1 (ih h2)
    exact this

theorem denoteSeq_split {l l' : List (StdOp ℝ)} {h : State → State}
    (hh : denoteSeq (l ++ l') = some h) :
    ∃ f g, denoteSeq l = some f ∧ denoteSeq l' = some g ∧ h = fun ψ => g (f ψ) := by
  induction l generalizing h with
  | nil => exact ⟨_, h, rfl, hh, rfl⟩
  | cons o l ih =>
    rw [List.cons_append] at hh
    obtain ⟨a, r, h1, h2, rfl⟩ := denoteSeq_cons hh
    obtain ⟨f, g, h3, h4, rfl⟩ := ih h2
    exact ⟨_, g, denoteSeq_cons_of h1 h3, h4, rfl⟩

namespace UOp

variable {P : Type}

/-- Meaning of an operation: a compound operation performs its parts in order. -/
noncomputable def denote : UOp ℝ → Option (State → State)
  | std o => o.denote
  | compound ops => ops.attach.foldl (fun acc ⟨o, _⟩ =>
      match acc, o.denote with
      | some f, some g => some fun ψ => g (f ψ)
      | _, _ => none) (some fun ψ => ψ)

/-- Meaning of a sequence of operations. -/
noncomputable def denoteL (l : List (UOp ℝ)) : Option (State → State) :=
  l.foldl (fun acc o =>
      match acc, o.denote with
      | some f, some g => some fun ψ => g (f ψ)
      | _, _ => none) (some fun ψ => ψ)

theorem denote_compound (l : List (UOp ℝ)) : (compound l).denote = denoteL l := by
  rw [denote, denoteL]
  conv_rhs => rw [← List.attach_map_subtype_val l]
  rw [List.foldl_map]

theorem denoteL_snoc (l : List (UOp ℝ)) (o : UOp ℝ) : denoteL (l ++ [o]) =
    match denoteL l, o.denote with
    | some f, some g => some fun ψ => g (f ψ)
    | _, _ => none := by
  unfold denoteL; rw [List.foldl_append]; rfl

theorem denoteL_leaves_aux (l : List (UOp ℝ))
    (ih : ∀ o ∈ l, ∀ f, o.denote = some f ↔ denoteSeq o.leaves = some f) (f : State → State) :
    denoteL l = some f ↔ denoteSeq (leavesL l) = some f := by
  induction l using List.reverseRecOn generalizing f with
  | nil => rfl
  | append_singleton l o ihl =>
    have hl := ihl fun o' ho' => ih o' (List.mem_append_left _ ho')
    have ho := ih o (by simp)
    rw [denoteL_snoc]
    have e : leavesL (l ++ [o]) = leavesL l ++ o.leaves := by simp [leavesL]
    rw [e]
    constructor
    · intro h
      split at h
      · rename_i a b h1 h2
        injection h with h; subst h
        exact denoteSeq_append ((hl a).1 h1) ((ho b).1 h2)
      · cases h
    · intro h
      obtain ⟨a, b, h1, h2, rfl⟩ := denoteSeq_split h
      rw [(hl a).2 h1, (ho b).2 h2]

/-- A (nested) operation means the sequence of the standard operations it contains. -/
theorem denote_leaves (o : UOp ℝ) (f : State → State) :
    o.denote = some f ↔ denoteSeq o.leaves = some f := by
  match o with
  | std o =>
    rw [denote, leaves_std]
    constructor
    · intro h
      simp only [denoteSeq, h]
    · intro h
      obtain ⟨g, r, h1, h2, rfl⟩ := denoteSeq_cons h
      simp only [denoteSeq, Option.some.injEq] at h2
      subst h2
      exact h1
  | compound l =>
    rw [denote_compound, leaves_compound]
    exact denoteL_leaves_aux l (fun o ho => denote_leaves o) f

theorem denoteL_leaves (l : List (UOp ℝ)) (f : State → State) :
    denoteL l = some f ↔ denoteSeq (leavesL l) = some f :=
  denoteL_leaves_aux l (fun o _ => denote_leaves o) f

/-- `invert` of every operation, then `std::reverse` — `none` if one of them throws.  Used both by
`CompoundOperation::invert` (246-251) and `QuantumComputation::invert` (547-551). -/
noncomputable def invert : UOp ℝ → Option (UOp ℝ)
  | std o => o.invert.map std
  | compound ops => (ops.attach.mapM (fun o : {x // x ∈ ops} => o.1.invert)).map fun l => compound l.reverse
termination_by o => o
decreasing_by
  have := List.sizeOf_lt_of_mem o.2
  simp only [compound.sizeOf_spec]; omega

noncomputable def invertL (l : List (UOp ℝ)) : Option (List (UOp ℝ)) :=
  (l.mapM invert).map List.reverse

theorem invert_compound (l : List (UOp ℝ)) : (compound l).invert = (invertL l).map compound := by
  rw [invert, invertL, Option.map_map]
  congr 1
  conv_rhs => rw [← List.attach_map_subtype_val l]
  rw [List.mapM_map]
  rfl

/-- Every contained standard operation is well-formed. -/
def WF (o : UOp P) : Prop := ∀ s ∈ o.leaves, s.WF

/-- `f` and `g` undo each other. -/
def Undo (f g : State → State) : Prop := (∀ ψ, g (f ψ) = ψ) ∧ ∀ ψ, f (g ψ) = ψ

theorem mapM_cons_some {α β : Type} {f : α → Option β} {a : α} {l : List α} {r : List β}
    (h : (a :: l).mapM f = some r) : ∃ b r', f a = some b ∧ l.mapM f = some r' ∧ r = b :: r' := by
  rw [List.mapM_cons] at h
  cases ha : f a with
  | none => rw [ha] at h; cases h
  | some b =>
    rw [ha] at h
    cases hl : l.mapM f with
    | none => rw [hl] at h; cases h
    | some r' =>
      rw [hl] at h
      exact ⟨b, r', rfl, rfl, (Option.some.inj h).symm⟩

theorem denoteL_cons {o : UOp ℝ} {l : List (UOp ℝ)} {f : State → State}
    (h : denoteL (o :: l) = some f) :
    ∃ g r, o.denote = some g ∧ denoteL l = some r ∧ f = fun ψ => r (g ψ) := by
  rw [denoteL_leaves] at h
  have e : leavesL (o :: l) = o.leaves ++ leavesL l := by simp [leavesL]
  rw [e] at h
  obtain ⟨g, r, h1, h2, rfl⟩ := denoteSeq_split h
  exact ⟨g, r, (denote_leaves _ _).2 h1, (denoteL_leaves _ _).2 h2, rfl⟩

theorem invertL_undo_aux (l : List (UOp ℝ))
    (ih : ∀ o ∈ l, ∀ o' f, o.WF → o.invert = some o' → o.denote = some f →
      ∃ g, o'.denote = some g ∧ Undo f g)
    (wf : ∀ o ∈ l, o.WF) (l' : List (UOp ℝ)) (h : l.mapM invert = some l')
    (f : State → State) (hf : denoteL l = some f) :
    ∃ g, denoteL l'.reverse = some g ∧ Undo f g := by
  induction l generalizing l' f with
  | nil =>
    simp at h; subst h
    exact ⟨f, hf, by
      simp only [denoteL, List.foldl_nil, Option.some.injEq] at hf; subst hf
      exact ⟨fun _ => rfl, fun _ => rfl⟩⟩
  | cons o l ihl =>
    obtain ⟨o', r', h1, h2, rfl⟩ := mapM_cons_some h
    obtain ⟨a, r, h3, h4, rfl⟩ := denoteL_cons hf
    obtain ⟨g, h5, h6⟩ := ih o (by simp) o' a (wf o (by simp)) h1 h3
    obtain ⟨k, h7, h8⟩ := ihl (fun o ho => ih o (List.mem_cons_of_mem _ ho))
      (fun o ho => wf o (List.mem_cons_of_mem _ ho)) r' h2 r h4
    refine ⟨fun ψ => g (k ψ), ?_, ?_, ?_⟩
    · rw [List.reverse_cons, denoteL_snoc, h7, h5]
    · intro ψ; simp only [h8.1, h6.1]
    · intro ψ; simp only [h6.2, h8.2]

theorem invert_undo (o : UOp ℝ) (o' : UOp ℝ) (f : State → State) (wf : o.WF)
    (h : o.invert = some o') (hf : o.denote = some f) :
    ∃ g, o'.denote = some g ∧ Undo f g := by
  match o with
  | std o =>
    rw [invert, Option.map_eq_some_iff] at h
    obtain ⟨s, h1, rfl⟩ := h
    rw [denote] at hf
    obtain ⟨g, h2, h3, h4⟩ := (StdOp.invert_isInv h1).undo (wf o (by simp)) hf
    exact ⟨g, by rw [denote]; exact h2, h3, h4⟩
  | compound l =>
    rw [invert_compound, Option.map_eq_some_iff] at h
    obtain ⟨r, h1, rfl⟩ := h
    rw [invertL, Option.map_eq_some_iff] at h1
    obtain ⟨l', h1, rfl⟩ := h1
    rw [denote_compound] at hf
    obtain ⟨g, h2, h3⟩ := invertL_undo_aux l (fun o ho o' f => invert_undo o o' f)
      (fun o ho s hs => wf s (by rw [leaves_compound, leavesL, List.mem_flatMap]; exact ⟨o, ho, hs⟩))
      l' h1 f hf
    exact ⟨g, by rw [denote_compound]; exact h2, h3⟩

theorem invertL_undo (l l' : List (UOp ℝ)) (f : State → State) (wf : ∀ o ∈ l, o.WF)
    (h : invertL l = some l') (hf : denoteL l = some f) :
    ∃ g, denoteL l' = some g ∧ Undo f g := by
  rw [invertL, Option.map_eq_some_iff] at h
  obtain ⟨r, h1, rfl⟩ := h
  exact invertL_undo_aux l (fun o _ o' f => invert_undo o o' f) wf r h1 f hf

/-! ### Commutation of compound operations -/

/-- `commutesAtQubit` with compound operations: a compound operation asks each of its parts
(CompoundOperation.cpp 200-206); a standard operation facing a compound operation hands the
question over with exchanged roles (StandardOperation.cpp 499-501). -/
def commutesAt [DecidableEq P] (a b : UOp P) (q : ℕ) : Bool :=
  match a, b with
  | compound l, b => l.attach.all fun o : {x // x ∈ l} => commutesAt o.1 b q
  | std s, compound l => l.attach.all fun o : {x // x ∈ l} => commutesAt o.1 (std s) q
  | std s, std o => s.commutesAt o q
termination_by sizeOf a + sizeOf b
decreasing_by
  · have := List.sizeOf_lt_of_mem o.2
    simp only [compound.sizeOf_spec]; omega
  · have := List.sizeOf_lt_of_mem o.2
    simp only [compound.sizeOf_spec]; omega

theorem commutesAt_compound [DecidableEq P] (l : List (UOp P)) (b : UOp P) (q : ℕ) :
    (compound l).commutesAt b q = l.all fun o => o.commutesAt b q := by
  rw [commutesAt]; simp

theorem commutesAt_std_compound [DecidableEq P] (s : StdOp P) (l : List (UOp P)) (q : ℕ) :
    (std s).commutesAt (compound l) q = l.all fun o => o.commutesAt (std s) q := by
  rw [commutesAt]; simp

theorem commutesAt_std_std [DecidableEq P] (s o : StdOp P) (q : ℕ) :
    (std s).commutesAt (std o) q = s.commutesAt o q := by
  rw [commutesAt]

theorem commutesAt_leaves [DecidableEq P] (a b : UOp P) (Q : ℕ → Prop)
    (h : ∀ q, Q q → a.commutesAt b q = true) (s : StdOp P) (hs : s ∈ a.leaves)
    (t : StdOp P) (ht : t ∈ b.leaves) :
    (∀ q, Q q → s.commutesAt t q = true) ∨ ∀ q, Q q → t.commutesAt s q = true := by
  match a, b with
  | compound l, b =>
    rw [leaves_compound, leavesL, List.mem_flatMap] at hs
    obtain ⟨o, ho, hs⟩ := hs
    refine commutesAt_leaves o b Q (fun q hq => ?_) s hs t ht
    have := h q hq
    rw [commutesAt_compound, List.all_eq_true] at this
    exact this o ho
  | std s', compound l =>
    rw [leaves_compound, leavesL, List.mem_flatMap] at ht
    obtain ⟨o, ho, ht⟩ := ht
    refine (commutesAt_leaves o (std s') Q (fun q hq => ?_) t ht s hs).symm
    have := h q hq
    rw [commutesAt_std_compound, List.all_eq_true] at this
    exact this o ho
  | std s', std t' =>
    rw [leaves_std, List.mem_singleton] at hs ht
    subst hs ht
    left
    intro q hq
    have := h q hq
    rwa [commutesAt_std_std] at this
termination_by sizeOf a + sizeOf b
decreasing_by
  · have := List.sizeOf_lt_of_mem ho
    simp only [compound.sizeOf_spec]; omega
  · have := List.sizeOf_lt_of_mem ho
    simp only [compound.sizeOf_spec]; omega

/-- Qubits used by a compound operation. -/
def uses (o : UOp P) (q : ℕ) : Prop := ∃ s ∈ o.leaves, q ∈ s.used

/-- One operation that commutes with each of a sequence commutes with the sequence. -/
theorem seq_comm {A : State → State} {l : List (StdOp ℝ)} {g : State → State}
    (hg : denoteSeq l = some g)
    (h : ∀ o ∈ l, ∀ f, o.denote = some f → ∀ ψ, A (f ψ) = f (A ψ)) (ψ : State) :
    A (g ψ) = g (A ψ) := by
  induction l generalizing g ψ with
  | nil => simp only [denoteSeq, Option.some.injEq] at hg; subst hg; rfl
  | cons o l ih =>
    obtain ⟨a, r, h1, h2, rfl⟩ := denoteSeq_cons hg
    simp only
    rw [ih h2 (fun o ho => h o (List.mem_cons_of_mem _ ho)), h o (by simp) a h1]

theorem commutes_sound {a b : UOp ℝ} (wa : a.WF) (wb : b.WF) {f g : State → State}
    (hf : a.denote = some f) (hg : b.denote = some g)
    (hc : ∀ q, a.uses q → b.uses q → @commutesAt ℝ (Classical.decEq ℝ) a b q = true)
    (ψ : State) : f (g ψ) = g (f ψ) := by
  rw [denote_leaves] at hf hg
  refine seq_comm hg (fun t ht gt hgt φ => ?_) ψ
  refine (seq_comm (A := gt) hf (fun s hs fs hfs χ => ?_) φ).symm
  let _ := Classical.decEq ℝ
  rcases commutesAt_leaves a b (fun q => a.uses q ∧ b.uses q) (fun q hq => hc q hq.1 hq.2)
    s hs t ht with h | h
  · exact (StdOp.commutes_sound (wa s hs) (wb t ht) hfs hgt
      (fun q h1 h2 => h q ⟨⟨s, hs, h1⟩, ⟨t, ht, h2⟩⟩) χ).symm
  · exact StdOp.commutes_sound (wb t ht) (wa s hs) hgt hfs
      (fun q h1 h2 => h q ⟨⟨s, hs, h2⟩, ⟨t, ht, h1⟩⟩) χ

end UOp

/-! ### Linearity -/

/-- `f` is a linear map of states. -/
structure Linear (f : State → State) : Prop where
  add : ∀ φ χ : State, f (fun x => φ x + χ x) = fun x => f φ x + f χ x
  smul : ∀ (k : ℂ) (φ : State), f (fun x => k * φ x) = fun x => k * f φ x

theorem app1_linear (M : Mat1) (q : ℕ) : Linear (app1 M q) := by
  constructor
  · intro φ χ; funext x; simp only [app1, mul_add, Finset.sum_add_distrib]
  · intro k φ; funext x; simp only [app1, Finset.mul_sum]
    exact Finset.sum_congr rfl fun b _ => by ring

theorem app2_linear (M : Mat2) (q r : ℕ) : Linear (app2 M q r) := by
  constructor
  · intro φ χ; funext x; simp only [app2, mul_add, Finset.sum_add_distrib]
  · intro k φ; funext x; simp only [app2, Finset.mul_sum]
    exact Finset.sum_congr rfl fun b _ => by ring

theorem ctl_linear {cs : Finset Ctrl} {A : State → State} (h : Linear A) : Linear (ctl cs A) := by
  constructor
  · intro φ χ; funext x; simp only [ctl, h.add]; split_ifs <;> rfl
  · intro k φ; funext x; simp only [ctl, h.smul]; split_ifs <;> rfl

theorem StdOp.denote_linear {o : StdOp ℝ} {f : State → State} (h : o.denote = some f) :
    Linear f := by
  rcases StdOp.denote_cases h with ⟨-, rfl⟩ | ⟨-, θ, -, rfl⟩ | ⟨-, q, M, -, -, rfl⟩ |
    ⟨-, q0, q1, M, -, -, rfl⟩
  · exact ⟨fun _ _ => rfl, fun _ _ => rfl⟩
  · apply ctl_linear
    constructor
    · intro φ χ; funext x; simp only [phase, mul_add]
    · intro k φ; funext x; simp only [phase]; ring
  · exact ctl_linear (app1_linear M q)
  · exact ctl_linear (app2_linear M q0 q1)

theorem Linear.comp {f g : State → State} (hf : Linear f) (hg : Linear g) :
    Linear fun ψ => g (f ψ) :=
  ⟨fun φ χ => by simp only [hf.add, hg.add], fun k φ => by simp only [hf.smul, hg.smul]⟩

theorem denoteSeq_linear {l : List (StdOp ℝ)} {f : State → State} (h : denoteSeq l = some f) :
    Linear f := by
  induction l generalizing f with
  | nil => simp only [denoteSeq, Option.some.injEq] at h; subst h
           exact ⟨fun _ _ => rfl, fun _ _ => rfl⟩
  | cons o l ih =>
    obtain ⟨a, r, h1, h2, rfl⟩ := denoteSeq_cons h
    exact (StdOp.denote_linear h1).comp (ih h2)

theorem UOp.denoteL_linear {l : List (UOp ℝ)} {f : State → State}
    (h : UOp.denoteL l = some f) : Linear f :=
  denoteSeq_linear ((UOp.denoteL_leaves l f).1 h)

/-! ### Layouts and global phase -/

/-- The relevant part of `QuantumComputation`: operations, global phase, initial layout and
output permutation (physical → logical, association lists in key order). -/
structure QC where
  ops : List (UOp ℝ)
  gphase : ℝ := 0
  init : List (ℕ × ℕ)
  out : List (ℕ × ℕ)

/-- `Permutation::apply(Qubit)` (Permutation.cpp 41-46), totalised: the code returns the qubit for an
empty permutation and throws (`.at`) for an unmapped qubit of a non-empty one; here such qubits
stay.  Only used for layouts that map all their qubits. -/
def permOf (l : List (ℕ × ℕ)) (q : ℕ) : ℕ := (l.lookup q).getD q

namespace QC

/-- `QuantumComputation::invert` (547-561).  The global phase is left alone. -/
noncomputable def invert (c : QC) : Option QC :=
  (UOp.invertL c.ops).map fun ops' =>
    if c.init.length = c.out.length then { c with ops := ops', init := c.out, out := c.init }
    else { c with ops := ops' }

/-- Meaning on logical states: a logical basis state `y` sits on the physical qubits as
`p ↦ y (init p)`; after the operations the result is read off through the output permutation. -/
noncomputable def denote (c : QC) : Option (State → State) :=
  (UOp.denoteL c.ops).map fun f ψ y =>
    ⟨cos c.gphase, sin c.gphase⟩ *
      f (fun x => ψ (x ∘ Function.invFun (permOf c.init))) (y ∘ permOf c.out)

end QC

/-- One pass of `while (globalPhase < 0) globalPhase += 2π;` with explicit fuel. -/
noncomputable def addLoop : ℕ → ℝ → ℝ
  | 0, θ => θ
  | n + 1, θ => if θ < 0 then addLoop n (θ + 2 * π) else θ

/-- `while (globalPhase >= 2π) globalPhase -= 2π;` with explicit fuel. -/
noncomputable def subLoop : ℕ → ℝ → ℝ
  | 0, θ => θ
  | n + 1, θ => if 2 * π ≤ θ then subLoop n (θ - 2 * π) else θ

/-- `QuantumComputation::gphase` (1301-1310).  The loops are unbounded in the code; the theorem
states that from a certain number of rounds on the result no longer depends on the fuel. -/
noncomputable def gphaseStep (fuel : ℕ) (cur angle : ℝ) : ℝ :=
  subLoop fuel (addLoop fuel (cur + angle))

theorem addLoop_spec (n : ℕ) (θ : ℝ) (h : -θ ≤ n * (2 * π)) :
    0 ≤ addLoop n θ ∧ (θ < 0 → addLoop n θ < 2 * π) ∧ (0 ≤ θ → addLoop n θ = θ) ∧
      ∃ k : ℕ, addLoop n θ = θ + k * (2 * π) := by
  have hp := Real.pi_pos
  induction n generalizing θ with
  | zero =>
    have h0 : 0 ≤ θ := by simp at h; linarith
    exact ⟨h0, fun h' => absurd h' (not_lt.2 h0), fun _ => rfl, 0, by simp [addLoop]⟩
  | succ n ih =>
    by_cases hθ : θ < 0
    · rw [addLoop, if_pos hθ]
      obtain ⟨a, b, c, k, d⟩ := ih (θ + 2 * π) (by push_cast at h; linarith)
      refine ⟨a, fun _ => ?_, fun h' => absurd hθ (not_lt.2 h'), k + 1, ?_⟩
      · by_cases h2 : θ + 2 * π < 0
        · exact b h2
        · rw [c (not_lt.1 h2)]; linarith
      · rw [d]; push_cast; ring
    · rw [addLoop, if_neg hθ]
      exact ⟨not_lt.1 hθ, fun h' => absurd h' hθ, fun _ => rfl, 0, by simp⟩

theorem subLoop_spec (n : ℕ) (θ : ℝ) (h0 : 0 ≤ θ) (h : θ < (n + 1) * (2 * π)) :
    0 ≤ subLoop n θ ∧ subLoop n θ < 2 * π ∧ ∃ k : ℕ, subLoop n θ = θ - k * (2 * π) := by
  have hp := Real.pi_pos
  induction n generalizing θ with
  | zero => exact ⟨h0, by simpa [subLoop] using h, 0, by simp [subLoop]⟩
  | succ n ih =>
    by_cases hθ : 2 * π ≤ θ
    · rw [subLoop, if_pos hθ]
      obtain ⟨a, b, k, d⟩ := ih (θ - 2 * π) (by linarith) (by push_cast at h ⊢; linarith)
      exact ⟨a, b, k + 1, by rw [d]; push_cast; ring⟩
    · rw [subLoop, if_neg hθ]
      exact ⟨h0, not_le.1 hθ, 0, by simp⟩

end MQT.IR

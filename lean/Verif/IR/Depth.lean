/-
The depth of a circuit.

Models `QuantumComputation::getDepth` (`src/ir/QuantumComputation.cpp` 238-249), `Operation::addDepthContribution`
(`src/ir/operations/Operation.cpp` 168-187), `NonUnitaryOperation::addDepthContribution` (`src/ir/operations/NonUnitaryOperation.cpp`
225-230), `CompoundOperation::addDepthContribution` (`src/ir/operations/CompoundOperation.cpp` 174-179) and the targets and controls of
classically controlled operations (`include/mqt-core/ir/operations/ClassicControlledOperation.hpp` 78-92).

The vector of depths is a function, with its size; `none` is undefined behaviour: an access behind the end of the vector, or the largest
element of a vector without elements.  Depths are natural numbers.
-/
import Mathlib.Data.List.Chain
import Mathlib.Data.List.Basic
import Mathlib.Logic.Function.Basic
import Mathlib.Tactic.Linarith

set_option autoImplicit false

namespace MQT.IR.Depth

/-! ### Model -/

/-- Gates (standard and symbolic operations) with targets and controls, whether they are barriers; measurements and resets; classically
controlled operations; compound operations with the controls that were added to them as a whole. -/
inductive Op
  | gate (barrier : Bool) (ts cs : List ℕ)
  | nonUnitary (ts : List ℕ)
  | classic (o : Op)
  | compound (cs : List ℕ) (os : List Op)

/-- `getTargets`: the member `targets` of a compound operation is empty; those of a classically controlled one are those of the operation. -/
def Op.targets : Op → List ℕ
  | .gate _ ts _ => ts
  | .nonUnitary ts => ts
  | .classic o => o.targets
  | .compound _ _ => []

/-- `getControls`. -/
def Op.controls : Op → List ℕ
  | .gate _ _ cs => cs
  | .nonUnitary _ => []
  | .classic o => o.controls
  | .compound cs _ => cs

/-- `Operation::addDepthContribution` but for barriers (Operation.cpp 173-186). -/
def addBase (n : ℕ) (d : ℕ → ℕ) (ts cs : List ℕ) : Option (ℕ → ℕ) :=
  if ∀ q ∈ ts ++ cs, q < n then
    let m := ts.foldl (fun m q => max m (d q)) 0
    let m := cs.foldl (fun m q => max m (d q)) m
    let m := m + 1
    let d := ts.foldl (fun d q => Function.update d q m) d
    some (cs.foldl (fun d q => Function.update d q m) d)
  else none

/-- `NonUnitaryOperation::addDepthContribution` (NonUnitaryOperation.cpp 225-230). -/
def addNon (n : ℕ) (d : ℕ → ℕ) : List ℕ → Option (ℕ → ℕ)
  | [] => some d
  | t :: ts => if t < n then addNon n (Function.update d t (d t + 1)) ts else none

mutual
/-- `addDepthContribution`. -/
def contribute (n : ℕ) : Op → (ℕ → ℕ) → Option (ℕ → ℕ)
  | .gate b ts cs, d => if b then some d else addBase n d ts cs
  | .nonUnitary ts, d => addNon n d ts
  | .classic o, d => addBase n d o.targets o.controls
  | .compound _ os, d => contributes n os d
/-- The loop over operations. -/
def contributes (n : ℕ) : List Op → (ℕ → ℕ) → Option (ℕ → ℕ)
  | [], d => some d
  | o :: os, d => (contribute n o d).bind (contributes n os)
end

/-- `getDepth` (QuantumComputation.cpp 238-249). -/
def getDepth (n : ℕ) (os : List Op) : Option ℕ :=
  if os.isEmpty then some 0
  else (contributes n os fun _ => 0).bind fun d =>
    if n = 0 then none else some (((List.range n).map d).foldl max 0)

/-! ### Specification -/

mutual
/-- The steps of an operation: the qubits of every gate that is not a barrier, every single measurement and reset. -/
def steps : Op → List (List ℕ)
  | .gate b ts cs => if b then [] else [ts ++ cs]
  | .nonUnitary ts => ts.map fun t => [t]
  | .classic o => steps o
  | .compound _ os => allSteps os
def allSteps : List Op → List (List ℕ)
  | [] => []
  | o :: os => steps o ++ allSteps os
end

/-- Steps on qubits that have to be done one after the other: each has a qubit of the next. -/
def IsPath (s : List (List ℕ)) : Prop := (∀ a ∈ s, a ≠ []) ∧ s.IsChain (fun a b => ∃ q, q ∈ a ∧ q ∈ b)

mutual
/-- Only gates, single measurements and resets are classically controlled. -/
def plain : Op → Bool
  | .gate _ _ _ => true
  | .nonUnitary _ => true
  | .classic (.gate b _ _) => !b
  | .classic (.nonUnitary ts) => ts.length = 1
  | .classic _ => false
  | .compound _ os => allPlain os
def allPlain : List Op → Bool
  | [] => true
  | o :: os => plain o && allPlain os
end

/-! ### Lemmas -/

/-- The depths after a step. -/
def level (d : ℕ → ℕ) (a : List ℕ) : ℕ → ℕ := fun q => if q ∈ a then (a.map d).foldl max 0 + 1 else d q

def run (n : ℕ) : List (List ℕ) → (ℕ → ℕ) → Option (ℕ → ℕ)
  | [], d => some d
  | a :: l, d => if ∀ q ∈ a, q < n then run n l (level d a) else none

theorem foldl_max_map (d : ℕ → ℕ) : ∀ (l : List ℕ) (m : ℕ), l.foldl (fun m q => max m (d q)) m = (l.map d).foldl max m
  | [], _ => rfl
  | q :: l, m => by simpa using foldl_max_map d l (max m (d q))

theorem foldl_update (m : ℕ) : ∀ (l : List ℕ) (d : ℕ → ℕ),
    l.foldl (fun d q => Function.update d q m) d = fun q => if q ∈ l then m else d q
  | [], d => by simp
  | a :: l, d => by
    rw [List.foldl_cons, foldl_update m l]
    funext q
    by_cases h : q ∈ l
    · simp [h]
    · by_cases h' : q = a
      · simp [h']
      · simp [h, h']

theorem addBase_eq (n : ℕ) (d : ℕ → ℕ) (ts cs : List ℕ) : addBase n d ts cs = run n [ts ++ cs] d := by
  unfold addBase
  rw [run]
  by_cases h : ∀ q ∈ ts ++ cs, q < n
  · rw [if_pos h, if_pos h, run]
    simp only [foldl_max_map, foldl_update]
    congr 1
    funext q
    unfold level
    rw [List.map_append, List.foldl_append]
    by_cases h1 : q ∈ cs
    · simp [h1]
    · by_cases h2 : q ∈ ts
      · simp [h1, h2]
      · simp [h1, h2]
  · rw [if_neg h, if_neg h]

theorem addNon_eq (n : ℕ) : ∀ (ts : List ℕ) (d : ℕ → ℕ), addNon n d ts = run n (ts.map fun t => [t]) d
  | [], d => rfl
  | t :: ts, d => by
    have e : level d [t] = Function.update d t (d t + 1) := by
      funext q
      unfold level
      by_cases h : q = t
      · simp [h]
      · simp [h]
    rw [addNon, List.map_cons, run, e]
    by_cases h : t < n
    · rw [if_pos h, if_pos (by simpa using h), addNon_eq n ts]
    · rw [if_neg h, if_neg (by simpa using h)]

theorem run_append (n : ℕ) : ∀ (l l' : List (List ℕ)) (d : ℕ → ℕ), run n (l ++ l') d = (run n l d).bind (run n l')
  | [], l', d => rfl
  | a :: l, l', d => by
    rw [List.cons_append, run, run]
    by_cases h : ∀ q ∈ a, q < n
    · rw [if_pos h, if_pos h, run_append n l l']
    · rw [if_neg h, if_neg h]
      rfl

mutual
theorem contribute_eq (n : ℕ) : ∀ (o : Op) (d : ℕ → ℕ), plain o = true → contribute n o d = run n (steps o) d
  | .gate b ts cs, d, _ => by
    cases b with
    | true => rfl
    | false => exact addBase_eq n d ts cs
  | .nonUnitary ts, d, _ => addNon_eq n ts d
  | .classic (.gate b ts cs), d, h => by
    cases b with
    | true => exact absurd h (by simp [plain])
    | false => exact addBase_eq n d ts cs
  | .classic (.nonUnitary [t]), d, _ => addBase_eq n d [t] []
  | .classic (.nonUnitary []), d, h => absurd h (by simp [plain])
  | .classic (.nonUnitary (_ :: _ :: _)), d, h => absurd h (by simp [plain])
  | .classic (.classic _), d, h => absurd h (by simp [plain])
  | .classic (.compound _ _), d, h => absurd h (by simp [plain])
  | .compound _ os, d, h => by
    rw [contribute, steps]
    exact contributes_eq n os d (by simpa [plain] using h)
theorem contributes_eq (n : ℕ) : ∀ (os : List Op) (d : ℕ → ℕ), allPlain os = true → contributes n os d = run n (allSteps os) d
  | [], d, _ => rfl
  | o :: os, d, h => by
    rw [allPlain, Bool.and_eq_true] at h
    rw [contributes, allSteps, run_append, contribute_eq n o d h.1]
    congr 1
    funext d'
    exact contributes_eq n os d' h.2
end

theorem run_some (n : ℕ) : ∀ (l : List (List ℕ)) (d : ℕ → ℕ),
    run n l d = if ∀ a ∈ l, ∀ q ∈ a, q < n then some (l.foldl level d) else none
  | [], d => by simp [run]
  | a :: l, d => by
    rw [run]
    by_cases h : ∀ q ∈ a, q < n
    · rw [if_pos h, run_some n l]
      by_cases h' : ∀ a ∈ l, ∀ q ∈ a, q < n
      · rw [if_pos h', if_pos]
        · rfl
        · intro b hb
          rcases List.mem_cons.1 hb with rfl | hb
          · exact h
          · exact h' b hb
      · rw [if_neg h', if_neg]
        exact fun h2 => h' fun b hb => h2 b (List.mem_cons_of_mem _ hb)
    · rw [if_neg h, if_neg]
      exact fun h2 => h (h2 a List.mem_cons_self)

theorem le_foldl_max : ∀ (l : List ℕ) (m : ℕ), m ≤ l.foldl max m ∧ ∀ x ∈ l, x ≤ l.foldl max m
  | [], m => by simp
  | y :: l, m => by
    obtain ⟨h1, h2⟩ := le_foldl_max l (max m y)
    rw [List.foldl_cons]
    refine ⟨le_trans (le_max_left _ _) h1, fun x hx => ?_⟩
    rcases List.mem_cons.1 hx with rfl | hx
    · exact le_trans (le_max_right _ _) h1
    · exact h2 x hx

theorem foldl_max_mem : ∀ (l : List ℕ) (m : ℕ), l.foldl max m = m ∨ l.foldl max m ∈ l
  | [], m => by simp
  | y :: l, m => by
    rw [List.foldl_cons]
    rcases foldl_max_mem l (max m y) with h | h
    · rw [h]
      rcases max_choice m y with e | e
      · exact Or.inl e
      · exact Or.inr (by rw [e]; exact List.mem_cons_self)
    · exact Or.inr (List.mem_cons_of_mem _ h)

/-- The depths after steps, the last of which is the head of the list. -/
def lev : List (List ℕ) → ℕ → ℕ
  | [] => fun _ => 0
  | a :: l => level (lev l) a

theorem lev_reverse (l : List (List ℕ)) : l.foldl level (fun _ => 0) = lev l.reverse := by
  have : ∀ l, lev l = l.foldr (fun a d => level d a) fun _ => 0 := by
    intro l
    induction l with
    | nil => rfl
    | cons a l ih => rw [lev, ih]; rfl
  rw [this, List.foldr_reverse]

theorem lev_mono (a : List ℕ) (l : List (List ℕ)) (q : ℕ) : lev l q ≤ lev (a :: l) q := by
  rw [lev]
  unfold level
  by_cases h : q ∈ a
  · rw [if_pos h]
    have := (le_foldl_max (a.map (lev l)) 0).2 _ (List.mem_map_of_mem h)
    omega
  · rw [if_neg h]

theorem path_le : ∀ (l s : List (List ℕ)) (a : List ℕ), (a :: s).Sublist l → IsPath (a :: s) → ∀ q ∈ a, (a :: s).length ≤ lev l q
  | [], s, a, h, _ => by simp at h
  | b :: l, s, a, h, hp => by
    intro q hq
    cases h with
    | cons _ h => exact le_trans (path_le l s a h hp q hq) (lev_mono b l q)
    | cons_cons _ h =>
      rw [lev]
      unfold level
      rw [if_pos hq]
      cases s with
      | nil => simp
      | cons c s =>
        obtain ⟨⟨q', h1, h2⟩, hc⟩ := List.isChain_cons_cons.1 hp.2
        have h3 := path_le l s c h ⟨fun x hx => hp.1 x (List.mem_cons_of_mem _ hx), hc⟩ q' h2
        have h4 := (le_foldl_max (b.map (lev l)) 0).2 _ (List.mem_map_of_mem h1)
        rw [List.length_cons]
        omega

theorem path_exists : ∀ (l : List (List ℕ)) (q : ℕ), lev l q ≠ 0 →
    ∃ a s, (a :: s).Sublist l ∧ IsPath (a :: s) ∧ q ∈ a ∧ (a :: s).length = lev l q
  | [], q, h => absurd rfl h
  | b :: l, q, h => by
    by_cases hq : q ∈ b
    · have e : lev (b :: l) q = (b.map (lev l)).foldl max 0 + 1 := by
        rw [lev]
        unfold level
        rw [if_pos hq]
      have hb : b ≠ [] := List.ne_nil_of_mem hq
      by_cases h0 : (b.map (lev l)).foldl max 0 = 0
      · refine ⟨b, [], by simp, ⟨by simpa using hb, by simp⟩, hq, ?_⟩
        rw [e, h0]
        rfl
      · rcases foldl_max_mem (b.map (lev l)) 0 with h1 | h1
        · exact absurd h1 h0
        · obtain ⟨q', hq', h2⟩ := List.mem_map.1 h1
          obtain ⟨a, s, h3, h4, h5, h6⟩ := path_exists l q' (by rw [h2]; exact h0)
          refine ⟨b, a :: s, h3.cons_cons b, ⟨?_, List.isChain_cons_cons.2 ⟨⟨q', hq', h5⟩, h4.2⟩⟩, hq, ?_⟩
          · intro x hx
            rcases List.mem_cons.1 hx with rfl | hx
            · exact hb
            · exact h4.1 x hx
          · rw [e, List.length_cons, h6, h2]
    · have e : lev (b :: l) q = lev l q := by
        rw [lev]
        unfold level
        rw [if_neg hq]
      obtain ⟨a, s, h3, h4, h5, h6⟩ := path_exists l q (by rw [← e]; exact h)
      exact ⟨a, s, h3.cons b, h4, h5, by rw [e, h6]⟩

theorem path_reverse {s : List (List ℕ)} (h : IsPath s) : IsPath s.reverse := by
  refine ⟨fun a ha => h.1 a (List.mem_reverse.1 ha), ?_⟩
  rw [List.isChain_reverse]
  exact h.2.imp fun a b ⟨q, h1, h2⟩ => ⟨q, h2, h1⟩

end MQT.IR.Depth

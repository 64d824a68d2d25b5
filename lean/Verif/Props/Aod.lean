/-
Property C119: operations of acousto-optic deflectors (`AodOperation`).
-/
import Verif.NA.Aod

set_option autoImplicit false

noncomputable section

open Classical

namespace MQT.NA.Aod

open MQT.IR

/-- **C119.** Inverting twice gives the operation back. -/
theorem c119_invert_twice (a : Aod) : a.invert.invert = a := by
  obtain ⟨ty, nm, ts, os⟩ := a
  unfold invert
  by_cases h1 : ty = .aodMove
  · subst h1
    simp only [if_true, List.map_map]
    congr 1
    exact List.map_id _
  · by_cases h2 : ty = .aodActivate
    · subst h2
      simp
    · by_cases h3 : ty = .aodDeactivate
      · subst h3
        simp
      · simp [h1, h2, h3]

/-- **C119.** The inverse of a move starts where the move ends, in either dimension, and the other way round; activating and
deactivating are inverse to each other at the same positions; the qubits and the distances stay. -/
theorem c119_invert (a : Aod) : a.invert.targets = a.targets ∧ (∀ d, a.invert.distances d = a.distances d) ∧
    (a.type = .aodMove → a.invert.type = .aodMove ∧ ∀ d, a.invert.starts d = a.ends d ∧ a.invert.ends d = a.starts d) ∧
    (a.type = .aodActivate → a.invert.type = .aodDeactivate ∧ a.invert.ops = a.ops) ∧
    (a.type = .aodDeactivate → a.invert.type = .aodActivate ∧ a.invert.ops = a.ops) := by
  obtain ⟨ty, nm, ts, os⟩ := a
  refine ⟨?_, fun d => ?_, fun h => ?_, fun h => ?_, fun h => ?_⟩
  · unfold invert
    split_ifs <;> rfl
  · unfold invert
    split_ifs
    · simp only [distances, List.filter_map, List.map_map]
      refine List.map_congr_left fun o _ => ?_
      exact abs_sub_comm _ _
    · rfl
    · rfl
    · rfl
  · simp only at h
    subst h
    refine ⟨rfl, fun d => ⟨?_, ?_⟩⟩
    · simp only [invert, if_true, starts, ends, List.filter_map, List.map_map]
      rfl
    · simp only [invert, if_true, starts, ends, List.filter_map, List.map_map]
      rfl
  · simp only at h
    subst h
    simp [invert]
  · simp only at h
    subst h
    simp [invert]

/-- **C119.** The largest distance is one of the distances and no distance is larger; without operations in this dimension it is 0. -/
theorem c119_max_distance (a : Aod) (d : Dim) : (a.distances d = [] → a.maxDistance d = 0) ∧
    (a.distances d ≠ [] → a.maxDistance d ∈ a.distances d) ∧ ∀ x ∈ a.distances d, x ≤ a.maxDistance d := by
  unfold maxDistance
  cases h : a.distances d with
  | nil => simp
  | cons x l =>
    obtain ⟨h1, h2⟩ := maxElement_spec l x
    exact ⟨fun e => (by cases e), fun _ => h1, h2⟩

/-- **C119.** Starts, ends and distances of a dimension belong together, in the order in which they were given. -/
theorem c119_lists (ty : OpType) (ts : List ℕ) (d : Dim) (ps : List (ℝ × ℝ)) :
    let a := ofLists ty ts (ps.map fun _ => d) (ps.map Prod.fst) (ps.map Prod.snd)
    a.starts d = ps.map Prod.fst ∧ a.ends d = ps.map Prod.snd ∧ a.distances d = ps.map (fun p => |p.2 - p.1|) ∧
    ∀ e, e ≠ d → a.starts e = [] ∧ a.ends e = [] := by
  have key : List.zipWith (fun (d : Dim) (p : ℝ × ℝ) => (⟨d, p.1, p.2⟩ : Single)) (ps.map fun _ => d)
      ((ps.map Prod.fst).zip (ps.map Prod.snd)) = ps.map fun p => ⟨d, p.1, p.2⟩ := by
    induction ps with
    | nil => rfl
    | cons p l ih => simpa using ih
  refine ⟨?_, ?_, ?_, fun e he => ?_⟩
  · simp only [ofLists, make, starts, key]
    rw [List.filter_eq_self.2 (fun o ho => by obtain ⟨p, -, rfl⟩ := List.mem_map.1 ho; simp), List.map_map]
    rfl
  · simp only [ofLists, make, ends, key]
    rw [List.filter_eq_self.2 (fun o ho => by obtain ⟨p, -, rfl⟩ := List.mem_map.1 ho; simp), List.map_map]
    rfl
  · simp only [ofLists, make, distances, key]
    rw [List.filter_eq_self.2 (fun o ho => by obtain ⟨p, -, rfl⟩ := List.mem_map.1 ho; simp), List.map_map]
    rfl
  · simp only [ofLists, make, starts, ends, key]
    rw [List.filter_eq_nil_iff.2 (fun o ho => by obtain ⟨p, -, rfl⟩ := List.mem_map.1 ho; simp [Ne.symm he])]
    exact ⟨rfl, rfl⟩

/-- **C119.** The name of a new operation is that of its type, and an operation can be made by its name. -/
theorem c119_name (ty : OpType) (ts : List ℕ) (dirs : List Dim) (starts stops : List ℝ) :
    (ofLists ty ts dirs starts stops).name = ty.toStr ∧ (ty = .aodMove ∨ ty = .aodActivate ∨ ty = .aodDeactivate →
      ofName ty.toStr ts dirs starts stops = some (ofLists ty ts dirs starts stops)) := by
  refine ⟨rfl, ?_⟩
  rintro (rfl | rfl | rfl) <;> simp [ofName, OpType.fromStr, OpType.toStr, OpType.row, OpType.nameTable, List.lookup]

/-- **C119.** The name is that of the type also after the inversion of a move.

Missing from C119: the inversion of activations and deactivations, for which it fails; see below. -/
theorem c119_invert_name_partial (a : Aod) (h : a.name = a.type.toStr) (hm : a.type ≠ .aodActivate) (hd : a.type ≠ .aodDeactivate) :
    a.invert.name = a.invert.type.toStr := by
  unfold invert
  rw [if_neg hm, if_neg hd]
  split_ifs <;> exact h

/-- **C119.** The text of an operation with at least one operation and one qubit: the name, the operations in parentheses, each followed
by a semicolon, and the qubits, separated by commas. -/
theorem c119_text (num : ℝ → List Char) (reg : ℕ → List Char) (indent : ℕ) (a : Aod) (before : List Char) (ho : a.ops ≠ [])
    (ht : a.targets ≠ []) : a.dump num reg indent before = before ++ List.replicate (indent * 2) ' ' ++ a.name.toList ++ " (".toList ++
      List.intercalate " ".toList (a.ops.map fun o =>
        [if o.dir = .x then '0' else '1'] ++ ", ".toList ++ num o.start ++ ", ".toList ++ num o.stop ++ ";".toList) ++ ")".toList ++
      List.intercalate ",".toList (a.targets.map fun q => " ".toList ++ reg q) ++ ";\n".toList := by
  have e1 : opText num = fun o => ([if o.dir = .x then '0' else '1'] ++ ", ".toList ++ num o.start ++ ", ".toList ++ num o.stop ++
      ";".toList) ++ [' '] := by
    funext o
    simp [opText]
  have n1 : (a.ops.flatMap fun o => ([if o.dir = .x then '0' else '1'] ++ ", ".toList ++ num o.start ++ ", ".toList ++ num o.stop ++
      ";".toList) ++ [' ']) ≠ [] := by
    obtain ⟨o, l, e⟩ := List.exists_cons_of_ne_nil ho
    simp [e]
  have n2 : (a.targets.flatMap fun q => (" ".toList ++ reg q) ++ [',']) ≠ [] := by
    obtain ⟨o, l, e⟩ := List.exists_cons_of_ne_nil ht
    simp [e]
  unfold dump overwrite
  simp only
  rw [e1, show ",".toList = [','] from rfl, List.dropLast_append_of_ne_nil n2, flat_dropLast _ _ _ ht, List.dropLast_append_of_ne_nil n1,
    flat_dropLast _ _ _ ho]
  rfl

/-- **C119 fails.** An inverted activation is a deactivation, but it is still written as `aod_activate`. -/
theorem c119_inverted_text (ts : List ℕ) (ops : List Single) (num : ℝ → List Char) (reg : ℕ → List Char) (indent : ℕ)
    (before : List Char) : let a := make .aodActivate ts ops
    a.invert.type = .aodDeactivate ∧ a.invert.name = "aod_activate" ∧ a.invert.name ≠ a.invert.type.toStr ∧
    a.invert.dump num reg indent before = a.dump num reg indent before := by
  refine ⟨by simp [make, invert], by simp [make, invert, OpType.toStr, OpType.row],
    by simp [make, invert, OpType.toStr, OpType.row], by simp [make, invert, dump]⟩

/-- **C119 fails.** Without operations the opening parenthesis is overwritten, without qubits the closing one. -/
theorem c119_empty_text (num : ℝ → List Char) (reg : ℕ → List Char) : (make .aodMove [] []).dump num reg 0 [] = "aod_move ;\n".toList := by
  simp [make, dump, overwrite, OpType.toStr, OpType.row]

/-- A move in both dimensions: where it starts, how far it goes, and its inverse. -/
example : let a := make .aodMove [0, 1] [⟨.x, 0, 1⟩, ⟨.y, 1, 3⟩]
    a.starts .y = [1] ∧ a.invert.starts .y = [3] ∧ a.maxDistance .y = 2 ∧ a.invert.ends .x = [0] := by
  have h : Dim.x ≠ Dim.y := by decide
  norm_num [make, starts, ends, invert, maxDistance, distances, maxElement, List.filter_cons, h, h.symm]

end MQT.NA.Aod

/-
`CircuitOptimizer::removeFinalMeasurements` (`src/circuit_optimizer/CircuitOptimizer.cpp` 464-589).

The per-qubit deques are lists of positions in the operation list, last operation first; a reverse
iterator is the rest of such a list, `rend()` is `[]`.  `setGate(I)` changes only the type and the name
of an operation; the model keeps the operations as they are and lists the positions that have been
turned into identities (`dead` for operations of the circuit, `deadP` for parts of compound operations).
Outcomes: `ub` = a dereferenced `rend()`; `throws` = `std::out_of_range`; `fuel` = the recursion was cut
off.

Simplification: the `while` loop and the recursive function are one function; both stop when the goal
is reached and both go on to the next qubit when the iterator is at `rend()`.
-/
import Verif.Opt.RemoveDiagonal

set_option autoImplicit false
set_option linter.unusedSectionVars false

namespace MQT.Opt.Final

open MQT.IR
open Function (update)

variable {P : Type}

/-- The iterators and the operations turned into identities. -/
structure FM where
  its : ℕ → List ℕ
  dead : List ℕ := []
  deadP : List (ℕ × ℕ) := []

/-- `isNonUnitaryOperation()` (Operation.hpp 139, NonUnitaryOperation.hpp 46, CompoundOperation.cpp
69-73). -/
def nonUnitary : Op P → Bool
  | .std _ => false
  | .compound ops _ => nonUnitaryL ops
  | .measure _ _ => true
  | .reset _ => true
  | .classic _ _ => false
where nonUnitaryL : List (Op P) → Bool
  | [] => false
  | o :: l => nonUnitary o || nonUnitaryL l

/-- The loop over the targets in `removeFinalMeasurement` (548-566); `R` is the recursive call. -/
def tryLines (R : ℕ → Option ℕ → FM → Res FM) (idx : ℕ) : List ℕ → FM → Res (Bool × FM)
  | [], S => .ok (true, S)
  | t :: l, S =>
    if t = idx then tryLines R idx l S
    else if S.its t = [] then .ok (false, S)
    else match S.its idx with
      | [] => .ub
      | j :: _ => (R t (some j) S).bind fun S' => match S'.its t with
        | [] => .ok (false, S')
        | a :: _ => match S'.its idx with
          | [] => .ub
          | b :: _ => if a ≠ b then .ok (false, S') else tryLines R idx l S'

/-- `removeFinalMeasurement` (541-577) for an operation with the given targets; `kill` is
`setGate(I)`. -/
def removeOne (R : ℕ → Option ℕ → FM → Res FM) (idx : ℕ) (ts : List ℕ) (kill : FM → FM) (S : FM) :
    Res (Bool × FM) :=
  if ts = [] then .ok (false, S)
  else (tryLines R idx ts S).bind fun r =>
    if r.1 then .ok (true, kill r.2) else .ok (false, { r.2 with its := update r.2.its idx [] })

/-- The loop over the targets after a removal (499-504). -/
def pop : List ℕ → FM → FM
  | [], S => S
  | t :: l, S => match S.its t with
    | [] => S
    | _ :: r => pop l { S with its := update S.its t r }

/-- The loop over the parts of the compound operation at position `i`, last part first (512-525). -/
def removeParts (R : ℕ → Option ℕ → FM → Res FM) (idx i : ℕ) : List (ℕ × Op P) → FM → Res (Bool × FM)
  | [], S => .ok (true, S)
  | (j, e) :: l, S =>
    if tgtsOf e ≠ [] ∧ (tgtsOf e).head? ≠ some idx then removeParts R idx i l S
    else (removeOne R idx (tgtsOf e) (fun S => { S with deadP := (i, j) :: S.deadP }) S).bind fun r =>
      if r.1 then removeParts R idx i l r.2 else .ok (false, r.2)

/-- `getType()` of the operation at position `i`. -/
def typeAt (S : FM) (i : ℕ) (e : Op P) : OpType := if i ∈ S.dead then .i else e.type

/-- One round of the `while` loop (495-534) for the operation `e` at position `i` on qubit `idx`. -/
def step (R : ℕ → Option ℕ → FM → Res FM) (idx i : ℕ) (e : Op P) (S : FM) : Res FM :=
  if typeAt S i e = .measure ∨ typeAt S i e = .barrier then
    (removeOne R idx (tgtsOf e) (fun S => { S with dead := i :: S.dead }) S).bind fun r =>
      .ok (if r.1 then pop (tgtsOf e) r.2 else r.2)
  else match e, nonUnitary e with
    | .compound ps _, true => (removeParts R idx i (ps.zipIdx.map Prod.swap).reverse S).bind fun r =>
      .ok (if r.1 then pop [idx] r.2 else r.2)
    | _, _ => .ok { S with its := update S.its idx [] }

/-- `removeFinalMeasurementsRecursive` (471-539). -/
def removeRec (n : ℕ) (ops : List (Op P)) : ℕ → ℕ → Option ℕ → FM → Res FM
  | 0, _, _, _ => .fuel
  | f + 1, idx, goal, S => match S.its idx with
    | [] => if idx + 1 < n then removeRec n ops f (idx + 1) none S else .ok S
    | i :: _ =>
      if goal = some i then .ok S
      else match ops[i]? with
        | none => .ub
        | some e => (step (removeRec n ops f) idx i e S).bind (removeRec n ops f idx goal)

/-- What is left of one operation after `removeIdentities` (48-87). -/
def collect1 (S : FM) (e : Op P) (i : ℕ) : List (Op P) :=
  if i ∈ S.dead then []
  else match e with
    | .compound ps cu =>
      regroup cu ((ps.zipIdx.filter fun p => p.1.type ≠ .i ∧ (i, p.2) ∉ S.deadP).map Prod.fst)
    | e => if e.type = .i then [] else [e]

/-- `removeIdentities`. -/
def collect (S : FM) (ops : List (Op P)) : List (Op P) := ops.zipIdx.flatMap fun p => collect1 S p.1 p.2

/-- `removeFinalMeasurements` (580-589). -/
def removeFinal (fuel n : ℕ) (ops : List (Op P)) : Res (List (Op P)) :=
  match constructDAG n ops with
  | none => .throws
  | some dag =>
    if n = 0 then .throws
    else (removeRec n ops fuel 0 none { its := dag }).bind fun S => .ok (collect S ops)

/-! ### Final operations -/

/-- A measurement or a barrier. -/
def isMB (e : Op P) : Prop := e.type = .measure ∨ e.type = .barrier

/-- The operation at position `k` is a measurement or barrier of at least one qubit, and every later
operation on one of its qubits is such a one too. -/
inductive Fin (ops : List (Op P)) : ℕ → Prop
  | mk (k : ℕ) (e : Op P) (he : ops[k]? = some e) (hm : isMB e) (ht : tgtsOf e ≠ [])
      (later : ∀ j e', k < j → ops[j]? = some e' → ¬ Disjoint e.usedQ e'.usedQ → Fin ops j) : Fin ops k

open Classical in
/-- The operations that are not final. -/
noncomputable def keep (ops : List (Op P)) : List (Op P) :=
  (ops.zipIdx.filter fun p => ¬ Fin ops p.2).map Prod.fst

open Classical in
/-- The operations that are final. -/
noncomputable def drop (ops : List (Op P)) : List (Op P) :=
  (ops.zipIdx.filter fun p => Fin ops p.2).map Prod.fst

/-- No compound operation with parts that are not unitary; measurements and barriers have no controls
and list every qubit once. -/
structure Flat (e : Op P) : Prop where
  comp : nonUnitary e = true → e.type ≠ .compound
  used : isMB e → e.usedQ = (tgtsOf e).toFinset
  nodup : isMB e → (tgtsOf e).Nodup


/-! ### The lists -/

/-- The list of every qubit holds the positions of the operations on it, last one first. -/
structure Lists (ops : List (Op P)) (dag : ℕ → List ℕ) (k : ℕ) : Prop where
  sorted : ∀ q, (dag q).Pairwise (· > ·)
  mem : ∀ q j, j ∈ dag q ↔ j < k ∧ ∃ o, ops[j]? = some o ∧ q ∈ o.usedQ

theorem dagFrom_lists {n : ℕ} {ops : List (Op P)} (l : List (Op P)) (k : ℕ) {dag : ℕ → List ℕ}
    (hl : ∀ j, ops[k + j]? = l[j]?) (h : Lists ops dag k) (hr : ∀ e ∈ l, ∀ q ∈ e.usedQ, q < n) :
    ∃ dag', dagFrom n k l dag = some dag' ∧ Lists ops dag' (k + l.length) := by
  induction l generalizing k dag with
  | nil => exact ⟨dag, rfl, h⟩
  | cons e l ih =>
    have he : ops[k]? = some e := by simpa using hl 0
    rw [dagFrom, addToDag, if_pos (hr e (by simp)), Option.bind_some]
    obtain ⟨dag', h1, h2⟩ := ih (k + 1) (dag := fun q => if q ∈ e.usedQ then k :: dag q else dag q)
      (fun j => by have := hl (j + 1); rw [List.getElem?_cons_succ] at this; rw [← this]; congr 1; omega)
      ⟨fun q => by
        split_ifs
        · exact List.Pairwise.cons (fun j hj => ((h.mem q j).1 hj).1) (h.sorted q)
        · exact h.sorted q, fun q j => by
        by_cases hq : q ∈ e.usedQ
        · rw [if_pos hq, List.mem_cons, h.mem]
          constructor
          · rintro (rfl | ⟨h1, h2⟩)
            · exact ⟨by omega, e, he, hq⟩
            · exact ⟨by omega, h2⟩
          · rintro ⟨h1, h2⟩
            by_cases hjk : j = k
            · exact Or.inl hjk
            · exact Or.inr ⟨by omega, h2⟩
        · rw [if_neg hq, h.mem]
          constructor
          · rintro ⟨h1, h2⟩
            exact ⟨by omega, h2⟩
          · rintro ⟨h1, o, h2, h3⟩
            refine ⟨?_, o, h2, h3⟩
            by_contra hjk
            have : j = k := by omega
            subst this
            rw [he] at h2
            injection h2 with h2
            subst h2
            exact hq h3⟩
      fun e' he' => hr e' (List.mem_cons_of_mem _ he')
    refine ⟨dag', h1, ?_⟩
    rw [List.length_cons]
    have : k + 1 + l.length = k + (l.length + 1) := by omega
    rwa [this] at h2

theorem constructDAG_lists {n : ℕ} {ops : List (Op P)} (hr : ∀ e ∈ ops, ∀ q ∈ e.usedQ, q < n) :
    ∃ dag, constructDAG n ops = some dag ∧ Lists ops dag ops.length := by
  have := dagFrom_lists (n := n) (ops := ops) ops 0 (dag := fun _ => []) (by simp)
    ⟨fun _ => List.Pairwise.nil, fun q j => by simp⟩ hr
  simpa [constructDAG] using this

theorem Lists.iff {ops : List (Op P)} {dag : ℕ → List ℕ} (h : Lists ops dag ops.length) (q j : ℕ) :
    j ∈ dag q ↔ ∃ o, ops[j]? = some o ∧ q ∈ o.usedQ := by
  rw [h.mem]
  constructor
  · exact fun h => h.2
  · rintro ⟨o, h1, h2⟩
    exact ⟨(List.getElem?_eq_some_iff.1 h1).1, o, h1, h2⟩

/-! ### The invariant -/

/-- What holds during the recursion. -/
structure Inv (ops : List (Op P)) (dag : ℕ → List ℕ) (S : FM) : Prop where
  fin : ∀ k ∈ S.dead, Fin ops k
  /-- Operations are removed from behind. -/
  up : ∀ k ∈ S.dead, ∀ j e e', k < j → ops[k]? = some e → ops[j]? = some e' → ¬ Disjoint e.usedQ e'.usedQ →
    j ∈ S.dead
  line : ∀ q, S.its q = [] ∨ S.its q = (dag q).filter fun k => k ∉ S.dead
  stop : ∀ k e q, ops[k]? = some e → q ∈ e.usedQ → k ∉ S.dead → S.its q = [] → ¬ Fin ops k
  noP : S.deadP = []

/-- The iterators only move forwards, removed operations stay removed. -/
structure Mono (S S' : FM) : Prop where
  its : ∀ q, (S'.its q).Sublist (S.its q)
  dead : ∀ k ∈ S.dead, k ∈ S'.dead

/-- No iterator has been moved to the end without removing what it passed. -/
def Tidy (S S' : FM) : Prop := ∀ q, S'.its q = (S.its q).filter fun k => k ∉ S'.dead

theorem Mono.refl (S : FM) : Mono S S := ⟨fun _ => List.Sublist.refl _, fun _ h => h⟩

theorem Mono.trans {S S' S'' : FM} (h : Mono S S') (h' : Mono S' S'') : Mono S S'' :=
  ⟨fun q => (h'.its q).trans (h.its q), fun k hk => h'.dead k (h.dead k hk)⟩

theorem Mono.nil {S S' : FM} (h : Mono S S') {q : ℕ} (hq : S.its q = []) : S'.its q = [] := by
  have := h.its q
  rw [hq] at this
  exact List.sublist_nil.1 this

theorem Tidy.trans {S S' S'' : FM} (h : Tidy S S') (h' : Tidy S' S'') (hm : Mono S' S'') : Tidy S S'' := by
  intro q
  rw [h' q, h q, List.filter_filter]
  apply List.filter_congr
  intro k _
  by_cases hk : k ∈ S''.dead
  · simp [hk]
  · have : k ∉ S'.dead := fun hk' => hk (hm.dead k hk')
    simp [hk, this]

section

variable {ops : List (Op P)} {dag : ℕ → List ℕ} {n : ℕ}

theorem Inv.tidy_refl {S : FM} (h : Inv ops dag S) : Tidy S S := by
  intro q
  rcases h.line q with h1 | h1
  · rw [h1]; rfl
  · rw [h1, List.filter_filter]
    apply List.filter_congr
    intro k _
    simp

/-- An operation that has not been removed is still in its lists. -/
theorem Inv.mem_its (hd : Lists ops dag ops.length) {S : FM} (h : Inv ops dag S) {k q : ℕ} {e : Op P}
    (he : ops[k]? = some e) (hq : q ∈ e.usedQ) (hk : k ∉ S.dead) (hn : S.its q ≠ []) : k ∈ S.its q := by
  rcases h.line q with h1 | h1
  · exact absurd h1 hn
  · rw [h1, List.mem_filter]
    exact ⟨(hd.iff q k).2 ⟨e, he, hq⟩, by simpa using hk⟩

theorem Inv.of_mem (hd : Lists ops dag ops.length) {S : FM} (h : Inv ops dag S) {k q : ℕ} (hk : k ∈ S.its q) :
    k ∉ S.dead ∧ ∃ e, ops[k]? = some e ∧ q ∈ e.usedQ := by
  rcases h.line q with h1 | h1
  · rw [h1] at hk; cases hk
  · rw [h1, List.mem_filter] at hk
    exact ⟨by simpa using hk.2, (hd.iff q k).1 hk.1⟩

theorem Inv.sorted (hd : Lists ops dag ops.length) {S : FM} (h : Inv ops dag S) (q : ℕ) :
    (S.its q).Pairwise (· > ·) := by
  rcases h.line q with h1 | h1
  · rw [h1]; exact List.Pairwise.nil
  · rw [h1]; exact (hd.sorted q).filter _

/-- Everything behind the head of a list comes earlier. -/
theorem Inv.lt_head (hd : Lists ops dag ops.length) {S : FM} (h : Inv ops dag S) {q i k : ℕ} {r : List ℕ}
    (hi : S.its q = i :: r) (hk : k ∈ S.its q) (hne : k ≠ i) : k < i := by
  have := h.sorted hd q
  rw [hi] at this hk
  exact (List.pairwise_cons.1 this).1 k ((List.mem_cons.1 hk).resolve_left hne)

/-- An operation behind one that has not been removed has not been removed. -/
theorem Inv.behind {S : FM} (h : Inv ops dag S) {q i k : ℕ} {e e' : Op P} (he : ops[i]? = some e)
    (he' : ops[k]? = some e') (hq : q ∈ e.usedQ) (hq' : q ∈ e'.usedQ) (hlt : k < i) (hi : i ∉ S.dead) :
    k ∉ S.dead := fun hk =>
  hi (h.up k hk i e' e hlt he' he (Finset.not_disjoint_iff.2 ⟨q, hq', hq⟩))

/-- Give up on a list whose head is not final. -/
theorem Inv.giveUp (hd : Lists ops dag ops.length) {S : FM} (h : Inv ops dag S) {idx i : ℕ} {r : List ℕ}
    (hi : S.its idx = i :: r ∨ S.its idx = []) (hf : S.its idx = i :: r → ¬ Fin ops i) :
    Inv ops dag { S with its := update S.its idx [] } := by
  refine ⟨h.fin, h.up, fun q => ?_, fun k e q he hq hk hn => ?_, h.noP⟩
  · dsimp only
    by_cases hq : q = idx
    · subst hq; left; rw [Function.update_self]
    · rw [Function.update_of_ne hq]; exact h.line q
  · dsimp only at hk hn
    by_cases hqi : q = idx
    · subst hqi
      rcases hi with hi | hi
      · have hmem := h.mem_its hd he hq hk (by rw [hi]; simp)
        by_cases hki : k = i
        · subst hki; exact hf hi
        · rintro ⟨_, e2, he2, hm, ht, later⟩
          rw [he] at he2
          injection he2 with he2
          subst he2
          obtain ⟨-, e3, he3, hq3⟩ := h.of_mem hd (k := i) (q := q) (by rw [hi]; simp)
          exact hf hi (later i e3 (h.lt_head hd hi hmem hki) he3 (Finset.not_disjoint_iff.2 ⟨q, hq, hq3⟩))
      · exact h.stop k e q he hq hk hi
    · rw [Function.update_of_ne hqi] at hn
      exact h.stop k e q he hq hk hn

theorem mono_giveUp (S : FM) (idx : ℕ) : Mono S { S with its := update S.its idx [] } := by
  refine ⟨fun q => ?_, fun k hk => hk⟩
  dsimp only
  by_cases hq : q = idx
  · subst hq; rw [Function.update_self]; exact List.nil_sublist _
  · rw [Function.update_of_ne hq]

/-! ### How much is left to do -/

/-- The number of list entries left. -/
def total (n : ℕ) (S : FM) : ℕ := ∑ q ∈ Finset.range n, (S.its q).length

/-- The recursion depth needed for a call beyond that for the entries left. -/
def extra (n L idx : ℕ) (goal : Option ℕ) (T : ℕ) : List ℕ → ℕ
  | [] => T * (L + n + 3) + (L + 2 + (n - idx))
  | i :: _ => if goal = some i then 0 else T * (L + n + 3) + (L - i + 1)

/-- The recursion depth needed for a call. -/
def depth (n L : ℕ) (S : FM) (idx : ℕ) (goal : Option ℕ) : ℕ := extra n L idx goal (total n S) (S.its idx)

theorem Mono.total_le {S S' : FM} (h : Mono S S') (n : ℕ) : total n S' ≤ total n S :=
  Finset.sum_le_sum fun q _ => (h.its q).length_le

theorem Mono.total_lt {S S' : FM} (h : Mono S S') {n q : ℕ} (hq : q < n)
    (hl : (S'.its q).length < (S.its q).length) : total n S' < total n S :=
  Finset.sum_lt_sum (fun q _ => (h.its q).length_le) ⟨q, Finset.mem_range.2 hq, hl⟩

theorem extra_le (n L idx : ℕ) (goal : Option ℕ) (T : ℕ) (l : List ℕ) :
    extra n L idx goal T l ≤ T * (L + n + 3) + (L + 2 + n) := by
  cases l with
  | nil => rw [extra]; omega
  | cons i r => rw [extra]; split_ifs <;> omega

/-- Less entries: less depth. -/
theorem depth_lt_of_total {S S' : FM} {n L idx' : ℕ} {goal' : Option ℕ} (h : total n S' < total n S) :
    depth n L S' idx' goal' < total n S * (L + n + 3) := by
  have h1 : total n S' * (L + n + 3) + (L + n + 3) ≤ total n S * (L + n + 3) := by
    have := Nat.mul_le_mul_right (L + n + 3) (Nat.succ_le_of_lt h)
    rwa [Nat.succ_mul] at this
  have h2 := extra_le n L idx' goal' (total n S') (S'.its idx')
  unfold depth
  omega

/-! ### The recursive call -/

/-- What a call guarantees. -/
structure Post (n : ℕ) (ops : List (Op P)) (dag : ℕ → List ℕ) (idx : ℕ) (goal : Option ℕ) (S S' : FM) :
    Prop where
  inv : Inv ops dag S'
  mono : Mono S S'
  none : goal = none → ∀ q, idx ≤ q → q < n → S'.its q = []
  some : ∀ p, goal = some p → p ∉ S'.dead ∧ (S'.its idx = [] ∨ ((S'.its idx).head? = some p ∧ Tidy S S'))

/-- What a call assumes: the goal is an operation on the qubit that has not been removed. -/
def Goal (ops : List (Op P)) (idx : ℕ) (goal : Option ℕ) (S : FM) : Prop :=
  ∀ p, goal = some p → p ∉ S.dead ∧ ∃ e, ops[p]? = some e ∧ idx ∈ e.usedQ

/-- A recursive call that behaves, up to a depth. -/
def Behaves (n : ℕ) (ops : List (Op P)) (dag : ℕ → List ℕ) (R : ℕ → Option ℕ → FM → Res FM) (f : ℕ) : Prop :=
  ∀ idx goal S, idx < n → Inv ops dag S → Goal ops idx goal S → depth n ops.length S idx goal < f →
    ∃ S', R idx goal S = .ok S' ∧ Post n ops dag idx goal S S'

theorem head_tidy {S S' : FM} (h : Tidy S S') {q i : ℕ} (hh : (S.its q).head? = some i) (hi : i ∉ S'.dead) :
    (S'.its q).head? = some i := by
  rw [h q]
  cases hl : S.its q with
  | nil => rw [hl] at hh; cases hh
  | cons a r =>
    rw [hl] at hh
    simp only [List.head?_cons, Option.some.injEq] at hh
    subst hh
    rw [List.filter_cons_of_pos (by simpa using hi)]
    rfl

/-- The loop over the targets of the operation at position `i`, the head of the list of `idx`. -/
theorem tryLines_spec (hd : Lists ops dag ops.length) {R : ℕ → Option ℕ → FM → Res FM} {f idx i : ℕ}
    (hR : Behaves n ops dag R f) {e : Op P} (he : ops[i]? = some e)
    (hr : ∀ q ∈ e.usedQ, q < n) (ts : List ℕ) (hts : ∀ t ∈ ts, t ∈ e.usedQ) (S : FM) (h : Inv ops dag S)
    (hh : (S.its idx).head? = some i) 
    (hdep : total n S * (ops.length + n + 3) + (ops.length - i + 1) ≤ f) :
    ∃ b S', tryLines R idx ts S = .ok (b, S') ∧ Inv ops dag S' ∧ Mono S S' ∧ i ∉ S'.dead ∧
      (b = true → Tidy S S' ∧ (S'.its idx).head? = some i ∧ ∀ t ∈ ts, (S'.its t).head? = some i) ∧
      (b = false → ∃ t ∈ e.usedQ, S'.its t = []) := by
  obtain ⟨r, hi⟩ : ∃ r, S.its idx = i :: r := by
    cases hl : S.its idx with
    | nil => rw [hl] at hh; cases hh
    | cons a r => rw [hl] at hh; simp only [List.head?_cons, Option.some.injEq] at hh; subst hh; exact ⟨r, rfl⟩
  have hdead : i ∉ S.dead := (h.of_mem hd (k := i) (q := idx) (by rw [hi]; simp)).1
  induction ts generalizing S r with
  | nil =>
    exact ⟨true, S, rfl, h, Mono.refl S, hdead, fun _ => ⟨h.tidy_refl, hh, by simp⟩, by simp⟩
  | cons t ts ih =>
    rw [tryLines]
    by_cases hti : t = idx
    · rw [if_pos hti]
      obtain ⟨b, S', h1, h2, h3, h4, h5, h6⟩ := ih (fun t ht => hts t (List.mem_cons_of_mem _ ht)) S h hh hdep
        r hi hdead
      refine ⟨b, S', h1, h2, h3, h4, fun hb => ?_, h6⟩
      obtain ⟨h7, h8, h9⟩ := h5 hb
      refine ⟨h7, h8, fun t' ht' => ?_⟩
      rcases List.mem_cons.1 ht' with rfl | ht'
      · rw [hti]; exact h8
      · exact h9 t' ht'
    rw [if_neg hti]
    have htu := hts t (by simp)
    by_cases htn : S.its t = []
    · rw [if_pos htn]
      exact ⟨false, S, rfl, h, Mono.refl S, hdead, by simp, fun _ => ⟨t, htu, htn⟩⟩
    rw [if_neg htn, hi]
    dsimp only
    -- the recursive call
    have hmem : i ∈ S.its t := h.mem_its hd he htu hdead htn
    obtain ⟨m, rt, hm⟩ : ∃ m rt, S.its t = m :: rt := List.exists_cons_of_ne_nil htn
    have hcall : ∃ S', R t (some i) S = .ok S' ∧ Post n ops dag t (some i) S S' := by
      refine hR t (some i) S (hr t htu) h (fun p hp => ?_) ?_
      · injection hp with hp; subst hp; exact ⟨hdead, e, he, htu⟩
      · have hil : i < ops.length := (List.getElem?_eq_some_iff.1 he).1
        rw [depth, hm, extra]
        by_cases hmi : i = m
        · rw [if_pos (by rw [hmi])]; omega
        · rw [if_neg (by simpa using hmi)]
          have := h.lt_head hd hm hmem hmi
          omega
    obtain ⟨S', hS', hp⟩ := hcall
    rw [hS', Res.bind]
    obtain ⟨hp1, hp2⟩ := hp.some i rfl
    rcases hp2 with hp2 | ⟨hp2, hp3⟩
    · rw [hp2]
      exact ⟨false, S', rfl, hp.inv, hp.mono, hp1, by simp, fun _ => ⟨t, htu, hp2⟩⟩
    · obtain ⟨a, ra, ha⟩ : ∃ a ra, S'.its t = a :: ra := by
        cases hl : S'.its t with
        | nil => rw [hl] at hp2; cases hp2
        | cons a r => exact ⟨a, r, rfl⟩
      have hai : a = i := by rw [ha] at hp2; simpa using hp2
      subst hai
      have hh' := head_tidy hp3 hh hp1
      obtain ⟨rb, hb⟩ : ∃ rb, S'.its idx = a :: rb := by
        cases hl : S'.its idx with
        | nil => rw [hl] at hh'; cases hh'
        | cons c r => rw [hl] at hh'; simp only [List.head?_cons, Option.some.injEq] at hh'; subst hh'; exact ⟨r, rfl⟩
      rw [ha, hb]
      dsimp only
      rw [if_neg (by simp)]
      have hdep' : total n S' * (ops.length + n + 3) + (ops.length - a + 1) ≤ f := by
        have := Nat.mul_le_mul_right (ops.length + n + 3) (hp.mono.total_le n)
        omega
      obtain ⟨b, S'', h1, h2, h3, h4, h5, h6⟩ := ih (fun t ht => hts t (List.mem_cons_of_mem _ ht)) S' hp.inv hh' hdep'
        rb hb hp1
      refine ⟨b, S'', h1, h2, hp.mono.trans h3, h4, fun hb => ?_, h6⟩
      obtain ⟨h7, h8, h9⟩ := h5 hb
      refine ⟨hp3.trans h7 h3, h8, fun t' ht' => ?_⟩
      rcases List.mem_cons.1 ht' with rfl | ht'
      · exact head_tidy h7 hp2 h4
      · exact h9 t' ht'

/-- Popping an operation that heads the lists of all its targets. -/
theorem pop_its (i : ℕ) (ts : List ℕ) (hnd : ts.Nodup) (S : FM) (hh : ∀ t ∈ ts, (S.its t).head? = some i) :
    pop ts S = { S with its := fun q => if q ∈ ts then (S.its q).tail else S.its q } := by
  induction ts generalizing S with
  | nil => simp [pop]
  | cons t ts ih =>
    rw [List.nodup_cons] at hnd
    rw [pop]
    cases hl : S.its t with
    | nil => have := hh t (by simp); rw [hl] at this; cases this
    | cons a r =>
      dsimp only
      rw [ih hnd.2]
      · congr 1
        funext q
        dsimp only
        by_cases hq : q = t
        · subst hq
          rw [if_neg hnd.1, if_pos (by simp), Function.update_self, hl, List.tail_cons]
        · rw [Function.update_of_ne hq]
          simp [hq]
      · intro t' ht'
        dsimp only
        rw [Function.update_of_ne (by rintro rfl; exact hnd.1 ht')]
        exact hh t' (List.mem_cons_of_mem _ ht')

/-- Removing an operation that heads the lists of all its qubits. -/
theorem Inv.remove (hd : Lists ops dag ops.length) {S : FM} (h : Inv ops dag S) {i : ℕ} {e : Op P}
    (he : ops[i]? = some e) (hm : isMB e) (hne : tgtsOf e ≠ []) (hu : e.usedQ = (tgtsOf e).toFinset)
    (hnd : (tgtsOf e).Nodup) (hh : ∀ t ∈ tgtsOf e, (S.its t).head? = some i) :
    Inv ops dag (pop (tgtsOf e) { S with dead := i :: S.dead }) ∧
      Mono S (pop (tgtsOf e) { S with dead := i :: S.dead }) ∧
      Tidy S (pop (tgtsOf e) { S with dead := i :: S.dead }) ∧
      (pop (tgtsOf e) { S with dead := i :: S.dead }).dead = i :: S.dead ∧
      ∀ t ∈ tgtsOf e, ((pop (tgtsOf e) { S with dead := i :: S.dead }).its t).length < (S.its t).length := by
  have hmem : ∀ q, q ∈ tgtsOf e ↔ q ∈ e.usedQ := fun q => by rw [hu, List.mem_toFinset]
  have hcons : ∀ t ∈ tgtsOf e, S.its t = i :: (S.its t).tail := by
    intro t ht
    have := hh t ht
    cases hl : S.its t with
    | nil => rw [hl] at this; cases this
    | cons a r =>
      rw [hl] at this
      simp only [List.head?_cons, Option.some.injEq] at this
      rw [this]; rfl
  rw [pop_its i (tgtsOf e) hnd { S with dead := i :: S.dead } hh]
  -- later operations on its qubits have been removed
  have hlater : ∀ j e', i < j → ops[j]? = some e' → ¬ Disjoint e.usedQ e'.usedQ → j ∈ S.dead := by
    intro j e' hij he' hdis
    obtain ⟨q, hq, hq'⟩ := Finset.not_disjoint_iff.1 hdis
    have hqt := (hmem q).2 hq
    by_contra hj
    have h1 := h.mem_its hd he' hq' hj (by rw [hcons q hqt]; simp)
    have := h.lt_head hd (hcons q hqt) h1 (by omega)
    omega
  have htail : ∀ q ∈ tgtsOf e, (S.its q).tail = (S.its q).filter fun k => k ∉ i :: S.dead := by
    intro q hq
    have hs := h.sorted hd q
    have h1 : ∀ k ∈ S.its q, k ∉ S.dead := fun k hk => (h.of_mem hd hk).1
    rw [hcons q hq] at hs h1 ⊢
    rw [List.filter_cons_of_neg (by simp), List.tail_cons]
    symm
    rw [List.filter_eq_self]
    intro k hk
    have := (List.pairwise_cons.1 hs).1 k hk
    have h2 := h1 k (List.mem_cons_of_mem _ hk)
    simp only [List.mem_cons, not_or, decide_eq_true_eq]
    exact ⟨by omega, h2⟩
  have htidy : Tidy S { S with dead := i :: S.dead, its := fun q => if q ∈ tgtsOf e then (S.its q).tail else S.its q } := by
    intro q
    dsimp only
    by_cases hq : q ∈ tgtsOf e
    · rw [if_pos hq]; exact htail q hq
    · rw [if_neg hq]
      symm
      rw [List.filter_eq_self]
      intro k hk
      obtain ⟨h1, e', he', hq'⟩ := h.of_mem hd hk
      have : k ≠ i := by
        rintro rfl
        rw [he] at he'
        injection he' with he'
        subst he'
        exact hq ((hmem q).2 hq')
      simp [this, h1]
  refine ⟨⟨?_, ?_, ?_, ?_, h.noP⟩, ⟨fun q => ?_, fun k hk => List.mem_cons_of_mem _ hk⟩, htidy, rfl, ?_⟩
  · intro k hk
    rcases List.mem_cons.1 hk with rfl | hk
    · exact .mk k e he hm hne fun j e' h1 h2 h3 => h.fin j (hlater j e' h1 h2 h3)
    · exact h.fin k hk
  · intro k hk j e1 e2 hkj h1 h2 h3
    rcases List.mem_cons.1 hk with rfl | hk
    · rw [he] at h1
      injection h1 with h1
      subst h1
      exact List.mem_cons_of_mem _ (hlater j e2 hkj h2 h3)
    · exact List.mem_cons_of_mem _ (h.up k hk j e1 e2 hkj h1 h2 h3)
  · intro q
    rcases h.line q with h1 | h1
    · left
      dsimp only
      rw [h1]; simp
    · right
      rw [htidy q, h1, List.filter_filter]
      apply List.filter_congr
      intro k _
      dsimp only
      by_cases h2 : k ∈ S.dead <;> by_cases h3 : k = i <;> simp [h2, h3]
  · intro k e' q he' hq hk hn
    dsimp only at hk hn
    have hk' : k ∉ S.dead := fun h' => hk (List.mem_cons_of_mem _ h')
    by_cases hqt : q ∈ tgtsOf e
    · rw [if_pos hqt] at hn
      exfalso
      have h1 := h.mem_its hd he' hq hk' (by rw [hcons q hqt]; simp)
      rw [hcons q hqt, hn, List.mem_singleton] at h1
      exact hk (by simp [h1])
    · rw [if_neg hqt] at hn
      exact h.stop k e' q he' hq hk' hn
  · dsimp only
    split_ifs
    · exact List.tail_sublist _
    · exact List.Sublist.refl _
  · intro t ht
    dsimp only
    rw [if_pos ht]
    conv_rhs => rw [hcons t ht]
    simp

/-- One round of the loop at the operation `i`, the head of the list of `idx`. -/
theorem step_spec (hd : Lists ops dag ops.length) {R : ℕ → Option ℕ → FM → Res FM} {f idx i : ℕ}
    (hR : Behaves n ops dag R f) {e : Op P} (he : ops[i]? = some e) (hidx : idx ∈ e.usedQ) (hfl : Flat e)
    (hr : ∀ q ∈ e.usedQ, q < n) (S : FM) (h : Inv ops dag S) {r : List ℕ} (hi : S.its idx = i :: r)
    (hdep : total n S * (ops.length + n + 3) + (ops.length - i + 1) ≤ f) :
    ∃ S', step R idx i e S = .ok S' ∧ Inv ops dag S' ∧ Mono S S' ∧
      (S'.its idx).length < (S.its idx).length ∧ (∀ p ∈ r, p ∉ S'.dead) ∧
      (S'.its idx = [] ∨ Tidy S S') := by
  have hdead : i ∉ S.dead := (h.of_mem hd (k := i) (q := idx) (by rw [hi]; simp)).1
  have htype : typeAt S i e = e.type := by rw [typeAt, if_neg hdead]
  -- operations behind `i`
  have hbehind : ∀ S' : FM, Inv ops dag S' → i ∉ S'.dead → ∀ p ∈ r, p ∉ S'.dead := by
    intro S' h' hi' p hp
    obtain ⟨-, e', he', hq'⟩ := h.of_mem hd (k := p) (q := idx) (by rw [hi]; exact List.mem_cons_of_mem _ hp)
    have hs := h.sorted hd idx
    rw [hi] at hs
    exact h'.behind he he' hidx hq' ((List.pairwise_cons.1 hs).1 p hp) hi'
  -- giving up
  have hgive : ∀ S' : FM, Inv ops dag S' → Mono S S' → i ∉ S'.dead → ¬ Fin ops i →
      Inv ops dag { S' with its := update S'.its idx [] } ∧ Mono S { S' with its := update S'.its idx [] } ∧
      (({ S' with its := update S'.its idx [] } : FM).its idx).length < (S.its idx).length ∧
      (∀ p ∈ r, p ∉ S'.dead) ∧ ({ S' with its := update S'.its idx [] } : FM).its idx = [] := by
    intro S' h' hm' hi' hf
    have hself : ({ S' with its := update S'.its idx [] } : FM).its idx = [] := Function.update_self ..
    refine ⟨?_, hm'.trans (mono_giveUp S' idx), ?_, hbehind S' h' hi', hself⟩
    · cases hl : S'.its idx with
      | nil => exact h'.giveUp hd (i := i) (r := r) (Or.inr hl) fun h2 => hf
      | cons a r' =>
        refine h'.giveUp hd (i := a) (r := r') (Or.inl hl) fun _ => ?_
        have h2 := h'.mem_its hd he hidx hi' (by rw [hl]; simp)
        have h3 := (hm'.its idx).subset (a := a) (by rw [hl]; simp)
        by_cases hai : a = i
        · rw [hai]; exact hf
        · have h4 := h.lt_head hd hi h3 hai
          have h5 := h'.lt_head hd hl h2 (Ne.symm hai)
          omega
    · rw [hself, hi]; simp
  unfold step
  rw [htype]
  by_cases hmb : e.type = .measure ∨ e.type = .barrier
  · rw [if_pos hmb]
    have hmem : ∀ q, q ∈ tgtsOf e ↔ q ∈ e.usedQ := fun q => by rw [hfl.used hmb, List.mem_toFinset]
    have hne : tgtsOf e ≠ [] := by
      intro h0
      have := (hmem idx).2 hidx
      rw [h0] at this
      cases this
    obtain ⟨b, S1, h1, h2, h3, h4, h5, h6⟩ := tryLines_spec hd hR he hr (tgtsOf e) (fun t ht => (hmem t).1 ht)
      S h (by rw [hi]; rfl) hdep
    rw [removeOne, if_neg hne, h1]
    simp only [Res.bind]
    cases b with
    | true =>
      obtain ⟨h7, -, h9⟩ := h5 rfl
      simp only [if_true]
      obtain ⟨g1, g2, g3, g4, g5⟩ := h2.remove hd he hmb hne (hfl.used hmb) (hfl.nodup hmb) h9
      refine ⟨_, rfl, g1, h3.trans g2, ?_, fun p hp => ?_, Or.inr (h7.trans g3 g2)⟩
      · exact lt_of_lt_of_le (g5 idx ((hmem idx).2 hidx)) (h3.its idx).length_le
      · rw [g4, List.mem_cons, not_or]
        have hs := h.sorted hd idx
        rw [hi] at hs
        have := (List.pairwise_cons.1 hs).1 p hp
        exact ⟨by omega, hbehind S1 h2 h4 p hp⟩
    | false =>
      obtain ⟨t, ht, htn⟩ := h6 rfl
      simp only [Bool.false_eq_true, if_false]
      obtain ⟨g1, g2, g3, g4, g5⟩ := hgive S1 h2 h3 h4 (h2.stop i e t he ht h4 htn)
      exact ⟨_, rfl, g1, g2, g3, g4, Or.inl g5⟩
  · rw [if_neg hmb]
    have hf : ¬ Fin ops i := by
      rintro ⟨_, e', he', hm', -, -⟩
      rw [he] at he'
      injection he' with he'
      subst he'
      exact hmb hm'
    obtain ⟨g1, g2, g3, g4, g5⟩ := hgive S h (Mono.refl S) hdead hf
    refine ⟨_, ?_, g1, g2, g3, g4, Or.inl g5⟩
    have hc := hfl.comp
    match e, hc with
    | .std _, _ => rfl
    | .measure _ _, _ => rfl
    | .reset _, _ => rfl
    | .classic _ _, _ => rfl
    | .compound ps b, hc =>
      cases hn : nonUnitary (Op.compound ps b) with
      | true => exact absurd rfl (hc hn)
      | false => rfl

/-- The recursive call with enough fuel. -/
theorem removeRec_spec (hd : Lists ops dag ops.length) (hfl : ∀ e ∈ ops, Flat e)
    (hr : ∀ e ∈ ops, ∀ q ∈ e.usedQ, q < n) (f : ℕ) : Behaves n ops dag (removeRec n ops f) f := by
  induction f with
  | zero => intro idx goal S _ _ _ hf; omega
  | succ f ih =>
    intro idx goal S hidx h hg hf
    rw [removeRec]
    cases hl : S.its idx with
    | nil =>
      dsimp only
      rw [depth, hl, extra] at hf
      have hgoal : ∀ S' : FM, Inv ops dag S' → Mono S S' → ∀ p, goal = some p → p ∉ S'.dead ∧
          (S'.its idx = [] ∨ ((S'.its idx).head? = some p ∧ Tidy S S')) := by
        intro S' h' hm p hp
        obtain ⟨h1, e, h2, h3⟩ := hg p hp
        exact ⟨fun hp' => h.stop p e idx h2 h3 h1 hl (h'.fin p hp'), Or.inl (hm.nil hl)⟩
      by_cases hn : idx + 1 < n
      · rw [if_pos hn]
        obtain ⟨S', h1, h2⟩ := ih (idx + 1) none S hn h (fun p hp => by cases hp) (by
          rw [depth]
          cases hl' : S.its (idx + 1) with
          | nil => rw [extra]; omega
          | cons a r => rw [extra, if_neg (by simp)]; omega)
        refine ⟨S', h1, h2.inv, h2.mono, fun _ q h3 h4 => ?_, hgoal S' h2.inv h2.mono⟩
        by_cases hq : q = idx
        · rw [hq]; exact h2.mono.nil hl
        · exact h2.none rfl q (by omega) h4
      · rw [if_neg hn]
        refine ⟨S, rfl, h, Mono.refl S, fun _ q h3 h4 => ?_, hgoal S h (Mono.refl S)⟩
        have : q = idx := by omega
        rw [this]; exact hl
    | cons i r =>
      dsimp only
      obtain ⟨hi1, e, he, hie⟩ := h.of_mem hd (k := i) (q := idx) (by rw [hl]; simp)
      by_cases hgi : goal = some i
      · rw [if_pos hgi]
        refine ⟨S, rfl, h, Mono.refl S, fun h' => (Option.some_ne_none i (hgi.symm.trans h')).elim, fun p hp => ?_⟩
        rw [hgi] at hp
        injection hp with hp
        subst hp
        exact ⟨hi1, Or.inr ⟨by rw [hl]; rfl, h.tidy_refl⟩⟩
      rw [if_neg hgi, he]
      dsimp only
      rw [depth, hl, extra, if_neg hgi] at hf
      have hem := List.mem_of_getElem? he
      obtain ⟨S1, h1, h2, h3, h4, h5, h6⟩ := step_spec hd ih he hie (hfl e hem) (hr e hem) S h hl (by omega)
      rw [h1]
      simp only [Res.bind]
      have hlt := depth_lt_of_total (L := ops.length) (idx' := idx) (goal' := goal) (h3.total_lt hidx h4)
      obtain ⟨S', g1, g2⟩ := ih idx goal S1 hidx h2 (fun p hp => by
        obtain ⟨k1, e', k2, k3⟩ := hg p hp
        refine ⟨h5 p ?_, e', k2, k3⟩
        have := h.mem_its hd k2 k3 k1 (by rw [hl]; simp)
        rw [hl] at this
        refine (List.mem_cons.1 this).resolve_left ?_
        rintro rfl
        exact hgi hp) (by omega)
      refine ⟨S', g1, g2.inv, h3.trans g2.mono, g2.none, fun p hp => ?_⟩
      obtain ⟨k1, k2⟩ := g2.some p hp
      refine ⟨k1, ?_⟩
      rcases k2 with k2 | ⟨k2, k3⟩
      · exact Or.inl k2
      · rcases h6 with h6 | h6
        · exact Or.inl (g2.mono.nil h6)
        · exact Or.inr ⟨k2, h6.trans k3 g2.mono⟩

theorem filter_zipIdx {α : Type} (p : α → Bool) (l : List α) (k : ℕ) :
    ((l.zipIdx k).filter fun x => p x.1).map Prod.fst = l.filter p := by
  induction l generalizing k with
  | nil => rfl
  | cons a l ih =>
    rw [List.zipIdx_cons]
    by_cases h : p a = true
    · rw [List.filter_cons_of_pos (by simpa using h), List.filter_cons_of_pos h, List.map_cons, ih]
    · rw [List.filter_cons_of_neg (by simpa using h), List.filter_cons_of_neg h, ih]

/-- What is left of a circuit without removed parts. -/
theorem collect_eq (S : FM) (hp : S.deadP = []) (hk : ∀ k e, ops[k]? = some e → (k ∈ S.dead ↔ Fin ops k)) :
    collect S ops = removeIdentities (keep ops) := by
  classical
  rw [collect, removeIdentities, keep, List.flatMap_map]
  have hz : ∀ p ∈ ops.zipIdx, p.2 ∈ S.dead ↔ Fin ops p.2 := by
    intro p hp
    have := List.mem_zipIdx_iff_getElem?.1 hp
    exact hk p.2 p.1 this
  generalize ops.zipIdx = l at hz
  induction l with
  | nil => rfl
  | cons p l ih =>
    rw [List.flatMap_cons, ih fun p' hp' => hz p' (List.mem_cons_of_mem _ hp')]
    have h0 := hz p (by simp)
    by_cases hf : Fin ops p.2
    · rw [List.filter_cons_of_neg (by simpa using hf)]
      unfold collect1
      rw [if_pos (h0.2 hf), List.nil_append]
    · rw [List.filter_cons_of_pos (by simpa using hf), List.flatMap_cons]
      unfold collect1
      rw [if_neg fun h => hf (h0.1 h)]
      congr 1
      obtain ⟨e, i⟩ := p
      match e with
      | .compound ps cu =>
        simp only [removeIdentities1, hp, List.not_mem_nil, not_false_eq_true, and_true]
        congr 1
        exact filter_zipIdx (fun o : Op P => decide (o.type ≠ .i)) ps 0
      | .std _ => rfl
      | .measure _ _ => rfl
      | .reset _ => rfl
      | .classic _ _ => rfl

end

/-- The fuel the pass needs. -/
def enough (n : ℕ) (ops : List (Op P)) : ℕ := (ops.length * n + 1) * (ops.length + n + 3)

theorem removeFinal_eq {n : ℕ} {ops : List (Op P)} (hn : 0 < n) (hr : ∀ e ∈ ops, ∀ q ∈ e.usedQ, q < n)
    (hfl : ∀ e ∈ ops, Flat e) (fuel : ℕ) (hf : enough n ops ≤ fuel) :
    removeFinal fuel n ops = .ok (removeIdentities (keep ops)) := by
  obtain ⟨dag, h1, hd⟩ := constructDAG_lists hr
  rw [removeFinal, h1]
  dsimp only
  rw [if_neg (by omega)]
  have h0 : Inv ops dag { its := dag } := by
    refine ⟨by simp, by simp, fun q => Or.inr ?_, fun k e q he hq _ hq' => ?_, rfl⟩
    · simp
    · have := (hd.iff q k).2 ⟨e, he, hq⟩
      dsimp only at hq'
      rw [hq'] at this
      cases this
  have hlen : ∀ q, (dag q).length ≤ ops.length := by
    intro q
    have h1 : (dag q).Nodup := (hd.sorted q).imp fun h => by omega
    have h2 : (dag q).toFinset ⊆ Finset.range ops.length := by
      intro j hj
      rw [List.mem_toFinset] at hj
      exact Finset.mem_range.2 ((hd.mem q j).1 hj).1
    have := Finset.card_le_card h2
    rwa [List.toFinset_card_of_nodup h1, Finset.card_range] at this
  have htot : total n { its := dag } ≤ ops.length * n := by
    have := Finset.sum_le_card_nsmul (Finset.range n) (fun q => (dag q).length) ops.length fun q _ => hlen q
    rw [Finset.card_range, smul_eq_mul, Nat.mul_comm] at this
    exact this
  obtain ⟨S, h2, h3⟩ := removeRec_spec hd hfl hr fuel 0 none { its := dag } hn h0 (fun p hp => by cases hp) (by
    have e1 := extra_le n ops.length 0 none (total n { its := dag }) (dag 0)
    have e2 := Nat.mul_le_mul_right (ops.length + n + 3) htot
    rw [enough, Nat.succ_mul] at hf
    rw [depth]
    dsimp only at e1 e2 ⊢
    omega)
  rw [h2]
  simp only [Res.bind]
  congr 1
  refine collect_eq S h3.inv.noP fun k e he => ⟨h3.inv.fin k, fun hfin => ?_⟩
  by_contra hk
  have hfin' := hfin
  obtain ⟨_, e', he', hm, ht, -⟩ := hfin
  rw [he] at he'
  injection he' with he'
  subst he'
  have hem := List.mem_of_getElem? he
  obtain ⟨q, hq⟩ := List.exists_mem_of_ne_nil _ ht
  have hqu : q ∈ e.usedQ := by rw [(hfl e hem).used hm, List.mem_toFinset]; exact hq
  exact h3.inv.stop k e q he hqu hk (h3.none rfl q (Nat.zero_le _) (hr e hem q hqu)) hfin'

end MQT.Opt.Final

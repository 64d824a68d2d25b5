import Verif.NA.Model
import Mathlib.Tactic.Ring
import Mathlib.Order.Basic

set_option autoImplicit false

/-! C07 (validation), C08 (location ordering), C09 (location after an operation). -/

namespace MQT.NA

set_option linter.unusedSectionVars false

variable {A R : Type} [DecidableEq A] [LinearOrder R] [Zero R]

/-! ### C08 -/

/-- Specification: lexicographic order on coordinates. -/
def LexLt (a b : Loc R) : Prop := a.x < b.x ∨ (a.x = b.x ∧ a.y < b.y)

/-- **C08, the part that holds**: `<`, `>`, `==`, `!=`, `<=` are the lexicographic total order.
Full statement: additionally `a >= b` iff `b <= a`; false, see `c08_ge_is_le`. -/
theorem c08_location_order_partial :
    (∀ a b : Loc R, Loc.lt a b = true ↔ LexLt a b) ∧
    (∀ a b : Loc R, Loc.gt a b = true ↔ LexLt b a) ∧
    (∀ a b : Loc R, Loc.eq a b = true ↔ a = b) ∧
    (∀ a b : Loc R, Loc.ne a b = true ↔ a ≠ b) ∧
    (∀ a b : Loc R, Loc.le a b = true ↔ (LexLt a b ∨ a = b)) ∧
    (∀ a b : Loc R, (Loc.lt a b = true ∧ Loc.eq a b = false ∧ Loc.gt a b = false) ∨
      (Loc.lt a b = false ∧ Loc.eq a b = true ∧ Loc.gt a b = false) ∨
      (Loc.lt a b = false ∧ Loc.eq a b = false ∧ Loc.gt a b = true)) ∧
    (∀ a b c : Loc R, Loc.lt a b = true → Loc.lt b c = true → Loc.lt a c = true) := by
  have hlt : ∀ a b : Loc R, Loc.lt a b = true ↔ LexLt a b := by
    intro a b; simp [Loc.lt, LexLt]
  have heq : ∀ a b : Loc R, Loc.eq a b = true ↔ a = b := by
    rintro ⟨x, y⟩ ⟨x', y'⟩; simp [Loc.eq]
  have htri : ∀ a b : Loc R, LexLt a b ∨ a = b ∨ LexLt b a := by
    rintro ⟨x, y⟩ ⟨x', y'⟩
    simp only [LexLt, Loc.mk.injEq]
    rcases lt_trichotomy x x' with h | h | h
    · exact Or.inl (Or.inl h)
    · rcases lt_trichotomy y y' with h' | h' | h'
      · exact Or.inl (Or.inr ⟨h, h'⟩)
      · exact Or.inr (Or.inl ⟨h, h'⟩)
      · exact Or.inr (Or.inr (Or.inr ⟨h.symm, h'⟩))
    · exact Or.inr (Or.inr (Or.inl h))
  have htrans : ∀ a b c : Loc R, LexLt a b → LexLt b c → LexLt a c := by
    rintro ⟨x, y⟩ ⟨x', y'⟩ ⟨x'', y''⟩
    simp only [LexLt]
    rintro (h | ⟨h, h'⟩) (k | ⟨k, k'⟩)
    · exact Or.inl (h.trans k)
    · exact Or.inl (k ▸ h)
    · exact Or.inl (h ▸ k)
    · exact Or.inr ⟨h.trans k, h'.trans k'⟩
  have hirr : ∀ a : Loc R, ¬ LexLt a a := by
    rintro ⟨x, y⟩; simp [LexLt]
  have hasym : ∀ a b : Loc R, LexLt a b → ¬ LexLt b a := fun a b h k => hirr a (htrans _ _ _ h k)
  refine ⟨hlt, fun a b => hlt b a, heq, ?_, ?_, ?_, ?_⟩
  · intro a b
    simp only [Loc.ne, Bool.not_eq_true', ← heq, Bool.not_eq_true, ne_eq]
  · intro a b
    simp only [Loc.le, Loc.ge, Bool.not_eq_true']
    rw [← Bool.not_eq_true, hlt]
    constructor
    · intro h
      rcases htri a b with h' | h' | h'
      · exact Or.inl h'
      · exact Or.inr h'
      · exact absurd h' h
    · rintro (h | rfl)
      · exact hasym a b h
      · exact hirr a
  · intro a b
    have e1 := hlt a b
    have e2 := heq a b
    have e3 : Loc.gt a b = true ↔ LexLt b a := hlt b a
    rcases htri a b with h | h | h
    · left
      refine ⟨e1.mpr h, ?_, ?_⟩
      · rw [← Bool.not_eq_true, e2]; rintro rfl; exact hirr _ h
      · rw [← Bool.not_eq_true, e3]; exact hasym _ _ h
    · right; left
      subst h
      refine ⟨?_, e2.mpr rfl, ?_⟩
      · rw [← Bool.not_eq_true, e1]; exact hirr _
      · rw [← Bool.not_eq_true, e3]; exact hirr _
    · right; right
      refine ⟨?_, ?_, e3.mpr h⟩
      · rw [← Bool.not_eq_true, e1]; exact hasym _ _ h
      · rw [← Bool.not_eq_true, e2]; rintro rfl; exact hirr _ h
  · intro a b c; rw [hlt, hlt, hlt]; exact htrans a b c

/-- **Disagreement**: `operator>=` decides `<=` (Location.hpp:107-109): it answers true for
(0,0) >= (1,0) and false for (1,0) >= (0,0). -/
theorem c08_ge_is_le :
    (∀ a b : Loc R, Loc.ge a b = Loc.le a b) ∧
    Loc.ge (⟨0, 0⟩ : Loc Int) ⟨1, 0⟩ = true ∧ Loc.ge (⟨1, 0⟩ : Loc Int) ⟨0, 0⟩ = false ∧
    Loc.le (⟨1, 0⟩ : Loc Int) ⟨0, 0⟩ = false :=
  ⟨fun _ _ => rfl, by decide, by decide, by decide⟩

/-! ### C09 -/

/-- Specification: the target given to `a` by the last operation of `pre` that moves `a`, else its
initial location. -/
def specLoc (init : Loc R) (pre : List (Op A R)) (a : A) : Loc R :=
  (pre.reverse.findSome? (fun op => op.targetOf a)).getD init

theorem specLoc_cons (init : Loc R) (op : Op A R) (pre : List (Op A R)) (a : A) :
    specLoc init (op :: pre) a = specLoc ((op.targetOf a).getD init) pre a := by
  unfold specLoc
  rw [List.reverse_cons, List.findSome?_append]
  cases pre.reverse.findSome? (fun op => op.targetOf a) with
  | some x => simp
  | none => simp [List.findSome?_cons]; cases op.targetOf a <;> simp

theorem go_eq (a : A) (k : Nat) : ∀ (ops : List (Op A R)) (i : Nat) (cur : Loc R), i ≤ k →
    locationAfter.go a k ops i cur = specLoc cur (ops.take (k + 1 - i)) a := by
  intro ops
  induction ops with
  | nil => intro i cur _; simp [locationAfter.go, specLoc]
  | cons op ops ih =>
    intro i cur hi
    have e : k + 1 - i = (k - i) + 1 := by omega
    rw [e, List.take_succ_cons, specLoc_cons]
    have hgo : locationAfter.go a k (op :: ops) i cur =
        if i = k then (op.targetOf a).getD cur
        else locationAfter.go a k ops (i + 1) ((op.targetOf a).getD cur) := by
      simp only [locationAfter.go]
      cases op.targetOf a <;> rfl
    rw [hgo]
    split
    · rename_i h; subst h; simp [specLoc]
    · rw [ih (i + 1) _ (by omega)]
      have : k + 1 - (i + 1) = k - i := by omega
      rw [this]

/-- **C09.** `getLocationOfAtomAfterOperation(atom, op)` for the `k`-th operation is the target of
the last operation among the first `k+1` that moves the atom, or its initial location; it throws
exactly if the atom has no initial location. -/
theorem c09_location_after_operation (p : Prog A R) (a : A) (k : Nat) :
    locationAfter p a k = (lookupLoc p.initial a).map (fun l => specLoc l (p.ops.take (k + 1)) a) := by
  unfold locationAfter
  cases lookupLoc p.initial a with
  | none => rfl
  | some l => simp [go_eq a k p.ops 0 l (by omega)]

/-- Concrete case: two moves of the same atom, asked in between and after. -/
example :
    let p : Prog Nat Int := ⟨[0, 1], [(0, ⟨0, 0⟩), (1, ⟨1, 0⟩)],
      [.load [0, 1], .move [(0, ⟨0, 1⟩), (1, ⟨1, 1⟩)], .globalOp, .storeTo [(1, ⟨5, 5⟩)]]⟩
    (locationAfter p 1 0, locationAfter p 1 2, locationAfter p 1 3, locationAfter p 7 3) =
      (some ⟨1, 0⟩, some ⟨1, 1⟩, some ⟨5, 5⟩, none) := by decide

/-! ### C07 -/

/-- `op` is a load (store) of `a`. -/
def Op.loads (op : Op A R) (a : A) : Prop :=
  match op with
  | .load l => a ∈ l
  | .loadTo p => a ∈ p.map (·.1)
  | _ => False

def Op.stores (op : Op A R) (a : A) : Prop :=
  match op with
  | .store l => a ∈ l
  | .storeTo p => a ∈ p.map (·.1)
  | _ => False

/-- `op` moves or stores `a`. -/
def Op.uses (op : Op A R) (a : A) : Prop :=
  match op with
  | .store l => a ∈ l
  | .storeTo p => a ∈ p.map (·.1)
  | .move p => a ∈ p.map (·.1)
  | _ => False

/-- Specification: `a` is loaded after the operations `pre`: some load of `a` is not followed by a
store of `a`. -/
def Loaded (pre : List (Op A R)) (a : A) : Prop :=
  ∃ p1 op p2, pre = p1 ++ op :: p2 ∧ op.loads a ∧ ∀ o ∈ p2, ¬ o.stores a

/-- Specification: current location of `a` after `pre` (unlocated atoms count as (0,0)). -/
def At (initial : List (A × Loc R)) (pre : List (Op A R)) (a : A) : Loc R :=
  specLoc ((lookupLoc initial a).getD ⟨0, 0⟩) pre a

/-- Same relative order. -/
def SameOrder (s1 s2 e1 e2 : R) : Prop := (s1 < s2 ↔ e1 < e2) ∧ (s1 = s2 ↔ e1 = e2) ∧ (s2 < s1 ↔ e2 < e1)

/-- Specification of a consistent step after `pre`. -/
structure StepOk (initial : List (A × Loc R)) (pre : List (Op A R)) (op : Op A R) : Prop where
  /-- loads take only atoms that are not loaded -/
  load : ∀ a, op.loads a → ¬ Loaded pre a
  /-- moves and stores take only loaded atoms -/
  use : ∀ a, op.uses a → Loaded pre a
  /-- an operation with target locations does not name an atom twice -/
  distinct : ∀ ps, op.targets = some ps → (ps.map (·.1)).Nodup
  /-- ... and gives different atoms different targets -/
  ends : ∀ ps, op.targets = some ps → (ps.map (·.2)).Nodup
  /-- ... and preserves the relative order of rows and columns of its atoms -/
  order : ∀ ps, op.targets = some ps → ∀ p ∈ ps, ∀ q ∈ ps,
    SameOrder (At initial pre p.1).x (At initial pre q.1).x p.2.x q.2.x ∧
    SameOrder (At initial pre p.1).y (At initial pre q.1).y p.2.y q.2.y
  /-- local operations do not name an atom twice -/
  localDistinct : ∀ l, op = .localOp l → l.Nodup

/-- Specification of a consistent program. -/
def Consistent (p : Prog A R) : Prop :=
  p.atoms.length = p.initial.length ∧
  ∀ pre op post, p.ops = pre ++ op :: post → StepOk p.initial pre op

theorem sameOrder_iff (s1 s2 e1 e2 : R) :
    SameOrder s1 s2 e1 e2 ↔ (s1 = s2 → e1 = e2) ∧ (s1 < s2 → e1 < e2) ∧ (s2 < s1 → e2 < e1) := by
  unfold SameOrder
  constructor
  · rintro ⟨h1, h2, h3⟩; exact ⟨h2.mp, h1.mp, h3.mp⟩
  · rintro ⟨h1, h2, h3⟩
    rcases lt_trichotomy s1 s2 with h | h | h
    · have := h2 h; exact ⟨by simp [h, this], by simp [h.ne, this.ne], by simp [h.not_gt, this.not_gt]⟩
    · have := h1 h; subst h; subst this; simp
    · have := h3 h; exact ⟨by simp [h.not_gt, this.not_gt], by simp [h.ne', this.ne'], by simp [h, this]⟩

theorem SameOrder.symm {s1 s2 e1 e2 : R} (h : SameOrder s1 s2 e1 e2) : SameOrder s2 s1 e2 e1 :=
  ⟨h.2.2, by rw [eq_comm, h.2.1, eq_comm], h.1⟩

/-- Relation checked by `pairOk`. -/
def PairRel (s : St A R) (p q : A × Loc R) : Prop :=
  p.1 ≠ q.1 ∧ p.2 ≠ q.2 ∧
  SameOrder (s.read p.1).x (s.read q.1).x p.2.x q.2.x ∧
  SameOrder (s.read p.1).y (s.read q.1).y p.2.y q.2.y

theorem pairOk_iff (s : St A R) (p q : A × Loc R) : pairOk s p q = true ↔ PairRel s p q := by
  have he := (c08_location_order_partial (R := R)).2.2.1 p.2 q.2
  have he' : Loc.eq p.2 q.2 = false ↔ p.2 ≠ q.2 := by rw [← Bool.not_eq_true, he]
  unfold PairRel
  simp only [sameOrder_iff]
  simp only [pairOk, Bool.and_eq_true, Bool.not_eq_true', Bool.and_eq_false_iff, Bool.not_eq_false',
    decide_eq_true_eq, decide_eq_false_iff_not, not_le, he']
  simp only [imp_iff_not_or]
  generalize (s.read p.1).x = a1
  generalize (s.read p.1).y = a2
  generalize (s.read q.1).x = b1
  generalize (s.read q.1).y = b2
  constructor
  · rintro ⟨⟨⟨⟨⟨⟨⟨h1, h2⟩, h3⟩, h4⟩, h5⟩, h6⟩, h7⟩, h8⟩
    exact ⟨h1, h2, ⟨h3, h5, h7⟩, h4, h6, h8⟩
  · rintro ⟨h1, h2, ⟨h3, h5, h7⟩, h4, h6, h8⟩
    exact ⟨⟨⟨⟨⟨⟨⟨h1, h2⟩, h3⟩, h4⟩, h5⟩, h6⟩, h7⟩, h8⟩

theorem pairsOk_iff (s : St A R) (ps : List (A × Loc R)) :
    pairsOk s ps = true ↔ ps.Pairwise (PairRel s) := by
  induction ps with
  | nil => simp [pairsOk]
  | cons p ps ih => simp [pairsOk, ih, pairOk_iff]

theorem pairwise_iff (s : St A R) (ps : List (A × Loc R)) :
    ps.Pairwise (PairRel s) ↔ (ps.map (·.1)).Nodup ∧ (ps.map (·.2)).Nodup ∧
      ∀ p ∈ ps, ∀ q ∈ ps, SameOrder (s.read p.1).x (s.read q.1).x p.2.x q.2.x ∧
        SameOrder (s.read p.1).y (s.read q.1).y p.2.y q.2.y := by
  induction ps with
  | nil => simp
  | cons p ps ih =>
    rw [List.pairwise_cons, ih]
    simp only [List.map_cons, List.nodup_cons, List.mem_map, not_exists, not_and, List.mem_cons,
      forall_eq_or_imp]
    have hself : ∀ x : R, SameOrder x x x x := by intro x; simp [SameOrder]
    have hrefl : ∀ x e : R, SameOrder x x e e := by intro x e; simp [SameOrder]
    constructor
    · rintro ⟨h1, h2, h3, h4⟩
      refine ⟨⟨fun q hq e => (h1 q hq).1 e.symm, h2⟩, ⟨fun q hq e => (h1 q hq).2.1 e.symm, h3⟩,
        ⟨⟨hrefl _ _, hrefl _ _⟩, fun q hq => (h1 q hq).2.2⟩, ?_⟩
      intro q hq
      exact ⟨⟨(h1 q hq).2.2.1.symm, (h1 q hq).2.2.2.symm⟩, h4 q hq⟩
    · rintro ⟨⟨h1, h2⟩, ⟨h3, h4⟩, ⟨_, h5⟩, h6⟩
      exact ⟨fun q hq => ⟨fun e => h1 q hq e.symm, fun e => h3 q hq e.symm, h5 q hq⟩, h2, h4,
        fun q hq => (h6 q hq).2⟩

theorem localOk_iff (used l : List A) : localOk used l = true ↔ l.Nodup ∧ ∀ a ∈ l, a ∉ used := by
  induction l generalizing used with
  | nil => simp [localOk]
  | cons a l ih =>
    simp only [localOk, List.nodup_cons, List.mem_cons, forall_eq_or_imp]
    split
    · rename_i h; simp [h]
    · rename_i h
      rw [ih]
      simp only [List.mem_cons, not_or]
      constructor
      · rintro ⟨h1, h2⟩
        exact ⟨⟨fun hm => (h2 a hm).1 rfl, h1⟩, h, fun b hb => (h2 b hb).2⟩
      · rintro ⟨⟨h1, h2⟩, _, h3⟩
        exact ⟨h2, fun b hb => ⟨fun e => h1 (e ▸ hb), h3 b hb⟩⟩

theorem assign_eq (ps : List (A × Loc R)) (hn : (ps.map (·.1)).Nodup) : ∀ (l : A → Option (Loc R)) (a : A),
    assign l ps a = (lookupLoc ps a).or (l a) := by
  induction ps with
  | nil => intro l a; simp [assign, lookupLoc]
  | cons p ps ih =>
    intro l a
    obtain ⟨b, t⟩ := p
    simp only [List.map_cons, List.nodup_cons] at hn
    rw [assign, ih hn.2]
    simp only [lookupLoc, List.find?_cons]
    by_cases e : b = a
    · subst e
      have : ps.find? (fun p => decide (p.1 = b)) = none := by
        rw [List.find?_eq_none]
        intro q hq; simp only [decide_eq_true_eq]
        rintro rfl; exact hn.1 (List.mem_map_of_mem hq)
      simp [this]
    · have e' : ¬ a = b := fun h => e h.symm
      simp [e, e']

/-- The state of `validate` after the operations `pre`. -/
structure StInv (initial : List (A × Loc R)) (pre : List (Op A R)) (s : St A R) : Prop where
  loc : ∀ a, s.read a = At initial pre a
  shut : ∀ a, s.shuttling a = true ↔ Loaded pre a

theorem Loaded.snoc (pre : List (Op A R)) (op : Op A R) (a : A) :
    Loaded (pre ++ [op]) a ↔ op.loads a ∨ (Loaded pre a ∧ ¬ op.stores a) := by
  constructor
  · rintro ⟨p1, o, p2, e, h1, h2⟩
    rcases List.eq_nil_or_concat p2 with hr | ⟨p2', x, hr⟩
    · subst hr
      obtain ⟨_, e2⟩ := List.append_inj' e rfl
      have : op = o := by simpa using e2
      subst this; exact Or.inl h1
    · subst hr
      have e' : pre ++ [op] = (p1 ++ o :: p2') ++ [x] := by simpa using e
      obtain ⟨e1, e2⟩ := List.append_inj' e' rfl
      have : op = x := by simpa using e2
      subst this
      refine Or.inr ⟨⟨p1, o, p2', e1, h1, fun o' ho' => h2 o' (by simp [ho'])⟩, h2 op (by simp)⟩
  · rintro (h | ⟨⟨p1, o, p2, e, h1, h2⟩, h3⟩)
    · exact ⟨pre, op, [], rfl, h, by simp⟩
    · refine ⟨p1, o, p2 ++ [op], by simp [e], h1, ?_⟩
      intro o' ho'
      rcases List.mem_append.mp ho' with h | h
      · exact h2 o' h
      · have : o' = op := by simpa using h
        subst this; exact h3

theorem At.snoc (initial : List (A × Loc R)) (pre : List (Op A R)) (op : Op A R) (a : A) :
    At initial (pre ++ [op]) a = (op.targetOf a).getD (At initial pre a) := by
  unfold At specLoc
  rw [List.reverse_append]
  simp only [List.reverse_cons, List.reverse_nil, List.nil_append, List.cons_append,
    List.findSome?_cons]
  cases op.targetOf a <;> rfl

theorem shuttleTargets_spec {initial : List (A × Loc R)} {pre : List (Op A R)} {s : St A R}
    (hl : ∀ a, s.read a = At initial pre a) (op : Op A R) :
    (∃ s', shuttleTargets s op = some s' ∧ s'.shuttling = s.shuttling ∧
        (∀ a, s'.read a = At initial (pre ++ [op]) a) ∧
        (∀ ps, op.targets = some ps → ps.Pairwise (PairRel s))) ∨
    (shuttleTargets s op = none ∧ ∃ ps, op.targets = some ps ∧ ¬ ps.Pairwise (PairRel s)) := by
  unfold shuttleTargets
  cases ht : op.targets with
  | none =>
    left
    refine ⟨s, rfl, rfl, ?_, by simp⟩
    intro a; rw [At.snoc, hl]; simp [Op.targetOf, ht]
  | some ps =>
    simp only
    by_cases hp : pairsOk s ps = true
    · left
      rw [if_pos hp]
      have hpw := (pairsOk_iff s ps).mp hp
      refine ⟨_, rfl, rfl, ?_, ?_⟩
      · intro a
        rw [At.snoc]
        have hn := ((pairwise_iff s ps).mp hpw).1
        simp only [St.read, assign_eq ps hn, Op.targetOf, ht]
        cases lookupLoc ps a with
        | some t => simp
        | none => simp; exact hl a
      · intro ps' e; cases e; exact hpw
    · right
      rw [if_neg hp]
      exact ⟨rfl, ps, rfl, fun h => hp ((pairsOk_iff s ps).mpr h)⟩

/-- The order conditions of `StepOk` for an operation with targets. -/
theorem stepOk_targets {initial : List (A × Loc R)} {pre : List (Op A R)} {s : St A R}
    (hl : ∀ a, s.read a = At initial pre a) (op : Op A R) :
    (∀ ps, op.targets = some ps → ps.Pairwise (PairRel s)) ↔
      (∀ ps, op.targets = some ps → (ps.map (·.1)).Nodup) ∧
      (∀ ps, op.targets = some ps → (ps.map (·.2)).Nodup) ∧
      (∀ ps, op.targets = some ps → ∀ p ∈ ps, ∀ q ∈ ps,
        SameOrder (At initial pre p.1).x (At initial pre q.1).x p.2.x q.2.x ∧
        SameOrder (At initial pre p.1).y (At initial pre q.1).y p.2.y q.2.y) := by
  simp only [pairwise_iff, hl]
  constructor
  · intro h; exact ⟨fun ps e => (h ps e).1, fun ps e => (h ps e).2.1, fun ps e => (h ps e).2.2⟩
  · rintro ⟨h1, h2, h3⟩ ps e; exact ⟨h1 ps e, h2 ps e, h3 ps e⟩

theorem step_spec {initial : List (A × Loc R)} {pre : List (Op A R)} {s : St A R}
    (h : StInv initial pre s) (op : Op A R) :
    (∃ s', step s op = some s' ∧ StepOk initial pre op ∧ StInv initial (pre ++ [op]) s') ∨
    (step s op = none ∧ ¬ StepOk initial pre op) := by
  -- the load case
  have hload : ∀ op : Op A R, (∀ a, op.loads a ↔ a ∈ op.atoms) → (∀ a, ¬ op.uses a) →
      (∀ a, ¬ op.stores a) → (∀ l, op ≠ .localOp l) →
      step s op = (if op.atoms.any (fun a => s.shuttling a) then none
        else shuttleTargets { s with shuttling := fun a => s.shuttling a || decide (a ∈ op.atoms) } op) →
      (∃ s', step s op = some s' ∧ StepOk initial pre op ∧ StInv initial (pre ++ [op]) s') ∨
      (step s op = none ∧ ¬ StepOk initial pre op) := by
    intro op e1 e2 e3 e4 e5
    rw [e5]
    by_cases ha : op.atoms.any (fun a => s.shuttling a) = true
    · right
      rw [if_pos ha]
      refine ⟨rfl, fun hs => ?_⟩
      obtain ⟨a, ha1, ha2⟩ := List.any_eq_true.mp ha
      exact hs.load a ((e1 a).mpr ha1) ((h.shut a).mp ha2)
    · rw [if_neg ha]
      have hfree : ∀ a, op.loads a → ¬ Loaded pre a := by
        intro a hla hL
        apply ha
        rw [List.any_eq_true]
        exact ⟨a, (e1 a).mp hla, (h.shut a).mpr hL⟩
      rcases shuttleTargets_spec (initial := initial) (pre := pre)
          (s := { s with shuttling := fun a => s.shuttling a || decide (a ∈ op.atoms) }) h.loc op with
        ⟨s', q1, q2, q3, q4⟩ | ⟨q1, ps, q2, q3⟩
      · left
        obtain ⟨r1, r2, r3⟩ := (stepOk_targets (initial := initial) (pre := pre)
          (s := { s with shuttling := fun a => s.shuttling a || decide (a ∈ op.atoms) }) h.loc op).mp q4
        refine ⟨s', q1, ⟨hfree, fun a hu => absurd hu (e2 a), r1, r2, r3, fun l e => absurd e (e4 l)⟩,
          q3, ?_⟩
        intro a
        rw [q2, Loaded.snoc, ← h.shut a, e1]
        simp [e3]
        tauto
      · right
        refine ⟨q1, fun hs => q3 ?_⟩
        exact (stepOk_targets (initial := initial) (pre := pre)
          (s := { s with shuttling := fun a => s.shuttling a || decide (a ∈ op.atoms) }) h.loc op).mpr
          ⟨hs.distinct, hs.ends, hs.order⟩ ps q2
  -- the move and store cases
  have huse : ∀ (op : Op A R) (f : St A R → St A R), (∀ a, op.uses a ↔ a ∈ op.atoms) →
      (∀ a, ¬ op.loads a) → (∀ l, op ≠ .localOp l) →
      (∀ s' : St A R, (f s').loc = s'.loc) →
      (∀ (s' : St A R) a, (f s').shuttling a = true ↔ (s'.shuttling a = true ∧ ¬ op.stores a)) →
      step s op = (if op.atoms.any (fun a => !s.shuttling a) then none
        else (shuttleTargets s op).map f) →
      (∃ s', step s op = some s' ∧ StepOk initial pre op ∧ StInv initial (pre ++ [op]) s') ∨
      (step s op = none ∧ ¬ StepOk initial pre op) := by
    intro op f e1 e2 e4 f1 f2 e5
    rw [e5]
    by_cases ha : op.atoms.any (fun a => !s.shuttling a) = true
    · right
      rw [if_pos ha]
      refine ⟨rfl, fun hs => ?_⟩
      obtain ⟨a, ha1, ha2⟩ := List.any_eq_true.mp ha
      have := (h.shut a).mpr (hs.use a ((e1 a).mpr ha1))
      simp [this] at ha2
    · rw [if_neg ha]
      have hfree : ∀ a, op.uses a → Loaded pre a := by
        intro a hla
        rw [← h.shut]
        by_contra hc
        apply ha
        rw [List.any_eq_true]
        exact ⟨a, (e1 a).mp hla, by simpa using hc⟩
      rcases shuttleTargets_spec h.loc op with ⟨s', q1, q2, q3, q4⟩ | ⟨q1, ps, q2, q3⟩
      · left
        obtain ⟨r1, r2, r3⟩ := (stepOk_targets h.loc op).mp q4
        refine ⟨f s', by rw [q1]; rfl, ⟨fun a hu => absurd hu (e2 a), hfree, r1, r2, r3,
          fun l e => absurd e (e4 l)⟩, ?_, ?_⟩
        · intro a; simp only [St.read, f1]; exact q3 a
        · intro a; rw [f2, q2, Loaded.snoc, ← h.shut a]; simp [e2]
      · right
        refine ⟨by rw [q1]; rfl, fun hs => q3 ?_⟩
        exact (stepOk_targets h.loc op).mpr ⟨hs.distinct, hs.ends, hs.order⟩ ps q2
  cases op with
  | load l =>
    exact hload (.load l) (by simp [Op.loads, Op.atoms]) (by simp [Op.uses])
      (by simp [Op.stores]) (by simp) rfl
  | loadTo l =>
    exact hload (.loadTo l) (by simp [Op.loads, Op.atoms]) (by simp [Op.uses])
      (by simp [Op.stores]) (by simp) rfl
  | move l =>
    refine huse (.move l) id (by simp [Op.uses, Op.atoms]) (by simp [Op.loads]) (by simp) (fun _ => rfl)
      (by simp [Op.stores]) ?_
    simp only [step, Option.map_id, id]
  | store l =>
    exact huse (.store l) (fun s' => { s' with shuttling := fun a => s'.shuttling a && !(decide (a ∈ l)) })
      (by simp [Op.uses, Op.atoms]) (by simp [Op.loads]) (by simp) (fun _ => rfl)
      (by intro s' a; simp [Op.stores]) rfl
  | storeTo l =>
    exact huse (.storeTo l) (fun s' => { s' with shuttling := fun a => s'.shuttling a && !(decide (a ∈ l.map (·.1))) })
      (by simp [Op.uses, Op.atoms]) (by simp [Op.loads]) (by simp) (fun _ => rfl)
      (by intro s' a; simp [Op.stores]) rfl
  | localOp l =>
    by_cases hl : localOk [] l = true
    · left
      refine ⟨s, by simp [step, hl], ⟨by simp [Op.loads], by simp [Op.uses], by simp [Op.targets],
        by simp [Op.targets], by simp [Op.targets], ?_⟩, ?_, ?_⟩
      · intro l' e; cases e; exact ((localOk_iff [] l).mp hl).1
      · intro a; rw [At.snoc, h.loc]; simp [Op.targetOf, Op.targets]
      · intro a; rw [Loaded.snoc, h.shut]; simp [Op.loads, Op.stores]
    · right
      refine ⟨by simp [step, hl], fun hs => hl ?_⟩
      rw [localOk_iff]
      exact ⟨hs.localDistinct l rfl, by simp⟩
  | globalOp =>
    left
    refine ⟨s, rfl, ⟨by simp [Op.loads], by simp [Op.uses], by simp [Op.targets],
        by simp [Op.targets], by simp [Op.targets], by simp⟩, ?_, ?_⟩
    · intro a; rw [At.snoc, h.loc]; simp [Op.targetOf, Op.targets]
    · intro a; rw [Loaded.snoc, h.shut]; simp [Op.loads, Op.stores]

theorem steps_spec {initial : List (A × Loc R)} (ops : List (Op A R)) :
    ∀ (pre : List (Op A R)) (s : St A R), StInv initial pre s →
    ((steps s ops).isSome = true ↔
      ∀ pre' op post, ops = pre' ++ op :: post → StepOk initial (pre ++ pre') op) := by
  induction ops with
  | nil => intro pre s _; simp [steps]
  | cons op ops ih =>
    intro pre s h
    rcases step_spec h op with ⟨s', e, ok, inv⟩ | ⟨e, bad⟩
    · simp only [steps, e, Option.bind_some]
      rw [ih (pre ++ [op]) s' inv]
      constructor
      · intro hall pre' o post he
        cases pre' with
        | nil =>
          simp only [List.nil_append, List.cons.injEq] at he
          rw [List.append_nil, ← he.1]; exact ok
        | cons o' pre' =>
          simp only [List.cons_append, List.cons.injEq] at he
          have := hall pre' o post he.2
          rw [← he.1]; simpa using this
      · intro hall pre' o post he
        have := hall (op :: pre') o post (by simp [he])
        simpa using this
    · simp only [steps, e, Option.bind_none]
      constructor
      · intro h; cases h
      · intro hall
        exact absurd (by simpa using hall [] op ops rfl) bad

theorem StInv.init (initial : List (A × Loc R)) :
    StInv initial [] ⟨lookupLoc initial, fun _ => false⟩ := by
  constructor
  · intro a; simp [St.read, At, specLoc]
  · intro a
    simp only [Loaded]
    constructor
    · intro h; cases h
    · rintro ⟨p1, o, p2, e, _⟩; simp at e

/-- **C07.** `validate` returns true exactly for the consistent programs: loads take only atoms that
are not loaded, moves and stores only loaded ones, operations with targets and local operations do
not name an atom twice, and every operation with targets preserves the relative row and column order
of the atoms it moves. `Consistent` quantifies over every prefix of the program.
Missing from the full C07: "no operation names an atom twice" for loads and stores without targets,
see `c07_duplicate_load_accepted`. -/
theorem c07_validate_iff_consistent_partial (p : Prog A R) : validate p = true ↔ Consistent p := by
  unfold validate Consistent
  by_cases hl : p.atoms.length = p.initial.length
  · simp only [hl, ne_eq, not_true_eq_false, if_false, true_and]
    simpa using steps_spec p.ops [] _ (StInv.init p.initial)
  · simp [hl]

/-- An accepted and a rejected program. -/
example :
    validate (⟨[0, 1], [(0, ⟨0, 0⟩), (1, ⟨1, 0⟩)],
      [.load [0, 1], .move [(0, ⟨0, 1⟩), (1, ⟨4, 1⟩)], .localOp [0, 1], .store [1], .store [0]]⟩ : Prog Nat Int)
      = true ∧
    validate (⟨[0, 1], [(0, ⟨0, 0⟩), (1, ⟨1, 0⟩)],
      [.load [0, 1], .move [(0, ⟨4, 1⟩), (1, ⟨0, 1⟩)]]⟩ : Prog Nat Int) = false := by decide

/-- **Disagreement 1**: a load naming the same atom twice is accepted (NAComputation.cpp:93-107 has
no duplicate check for operations without target locations). -/
theorem c07_duplicate_load_accepted :
    validate (⟨[0], [(0, ⟨0, 0⟩)], [.load [0, 0], .store [0, 0]]⟩ : Prog Nat Int) = true := by decide

/-- **Disagreement 2** (with the documentation NAComputation.hpp, "the relative order of loaded atoms
is preserved"): atoms 0 and 1 are both loaded, atom 0 at x = 0 is moved past atom 1 at x = 1 by an
operation of its own, and the program is accepted. -/
theorem c07_loaded_order_not_preserved :
    let ops : List (Op Nat Int) := [.load [0], .load [1], .move [(0, ⟨2, 0⟩)]]
    let initial : List (Nat × Loc Int) := [(0, ⟨0, 0⟩), (1, ⟨1, 0⟩)]
    validate ⟨[0, 1], initial, ops⟩ = true ∧
    (At initial [] 0).x < (At initial [] 1).x ∧ (At initial ops 1).x < (At initial ops 0).x := by
  decide

/-- **Disagreement 3**: only the sizes of `atoms_` and `initialLocations_` are compared, so an atom
without initial location is silently treated as located at (0,0). -/
theorem c07_unlocated_atom_accepted :
    validate (⟨[0, 1], [(0, ⟨0, 0⟩), (7, ⟨1, 0⟩)], [.load [1], .move [(1, ⟨3, 3⟩)]]⟩ : Prog Nat Int) = true ∧
    locationAfter (⟨[0, 1], [(0, ⟨0, 0⟩), (7, ⟨1, 0⟩)], [.load [1], .move [(1, ⟨3, 3⟩)]]⟩ : Prog Nat Int) 1 0
      = none := by decide

end MQT.NA

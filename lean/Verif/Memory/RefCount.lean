import Mathlib.Algebra.BigOperators.Group.Finset.Basic
import Mathlib.Data.Finset.Card
import Mathlib.Data.Finset.Lattice.Fold
import Mathlib.Logic.Relation
import Mathlib.Tactic.Linarith

set_option autoImplicit false

/-
Model of the reference counting of decision-diagram nodes:
 * include/mqt-core/dd/Node.hpp:218-249 (`incRef`, `decRef` on one node, with saturation),
 * include/mqt-core/dd/Package.hpp:206-236 (`Package::incRef`, `Package::decRef`, recursive),
 * src/dd/UniqueTable.cpp:66-100 (`garbageCollect` reclaims the nodes with count 0; its loop over the
   buckets is modelled in `Verif.Memory.UniqueTable`, theorem `c11_garbageCollect`),
 * include/mqt-core/dd/Package.hpp:474-490 (`makeDDNode` asserts that a new node has count 0).

A node is an address with the list of its non-terminal children (`nullptr` children are skipped by
`incRef`/`decRef`) and its level `v`. `M` is `std::numeric_limits<RefCount>::max()`.
`none` is a failed assertion (or exhausted recursion fuel `level + 1`).
Not modelled: the counts of the edge weights (`cn.incRef`).
-/
namespace MQT.Ref

set_option linter.unusedSectionVars false

variable {A : Type} [DecidableEq A]

/-- Heap of nodes. -/
structure H (A : Type) where
  children : A → List A
  level : A → Nat
  ref : A → Nat
  alive : Finset A

def H.setRef (h : H A) (a : A) (n : Nat) : H A := { h with ref := fun x => if x = a then n else h.ref x }

/-- Node.hpp:218-224 and Package.hpp:206-215. -/
def incRef (M : Nat) : Nat → H A → A → Option (H A)
  | 0, _, _ => none
  | f + 1, h, a =>
    if h.ref a = M then some h
    else
      let h := h.setRef a (h.ref a + 1)
      if h.ref a = 1 then (h.children a).foldlM (fun h c => incRef M f h c) h
      else some h

/-- Node.hpp:236-244 and Package.hpp:227-236. -/
def decRef (M : Nat) : Nat → H A → A → Option (H A)
  | 0, _, _ => none
  | f + 1, h, a =>
    if h.ref a = M then some h
    else if h.ref a = 0 then none
    else
      let h := h.setRef a (h.ref a - 1)
      if h.ref a = 0 then (h.children a).foldlM (fun h c => decRef M f h c) h
      else some h

/-- A new node from `makeDDNode`. -/
def H.create (h : H A) (a : A) (cs : List A) (lvl : Nat) : H A :=
  { h with children := fun x => if x = a then cs else h.children x
           level := fun x => if x = a then lvl else h.level x
           alive := insert a h.alive }

/-- `garbageCollect`: nodes with count 0 are reclaimed. -/
def H.gc (h : H A) : H A := { h with alive := h.alive.filter (fun a => h.ref a ≠ 0) }

/-! ### Invariants -/

/-- References from active nodes. -/
def H.fromActive (h : H A) (x : A) : Nat :=
  ∑ b ∈ h.alive.filter (fun b => h.ref b ≠ 0), (h.children b).count x

/-- Structural part. -/
structure WF (h : H A) : Prop where
  closed : ∀ a ∈ h.alive, ∀ c ∈ h.children a, c ∈ h.alive
  level : ∀ a ∈ h.alive, ∀ c ∈ h.children a, h.level c < h.level a
  dead : ∀ a, a ∉ h.alive → h.ref a = 0

/-- Counts, with increments `p` still to be done. -/
def IncOwed (M : Nat) (h : H A) (B : A → Nat) (p : List A) : Prop :=
  ∀ x, h.ref x = M ∨ h.ref x + p.count x = B x + h.fromActive x

/-- Counts, with decrements `p` still to be done. -/
def DecOwed (M : Nat) (h : H A) (B : A → Nat) (p : List A) : Prop :=
  ∀ x, h.ref x = M ∨ h.ref x = B x + h.fromActive x + p.count x

/-- Same graph. -/
structure Same (h h' : H A) : Prop where
  children : h'.children = h.children
  level : h'.level = h.level
  alive : h'.alive = h.alive

theorem Same.refl (h : H A) : Same h h := ⟨rfl, rfl, rfl⟩
theorem Same.trans {h h' h'' : H A} (a : Same h h') (b : Same h' h'') : Same h h'' :=
  ⟨b.children.trans a.children, b.level.trans a.level, b.alive.trans a.alive⟩

theorem fromActive_setRef_active {h : H A} {a : A} {n : Nat} (h0 : h.ref a ≠ 0) (hn : n ≠ 0) (x : A) :
    (h.setRef a n).fromActive x = h.fromActive x := by
  unfold H.fromActive
  apply Finset.sum_congr
  · ext b
    rw [Finset.mem_filter, Finset.mem_filter]
    simp only [H.setRef]
    by_cases e : b = a
    · subst e; simp [h0, hn]
    · simp [e]
  · intro b _; rfl

theorem fromActive_setRef_on {h : H A} {a : A} {n : Nat} (ha : a ∈ h.alive) (h0 : h.ref a = 0)
    (hn : n ≠ 0) (x : A) :
    (h.setRef a n).fromActive x = h.fromActive x + (h.children a).count x := by
  unfold H.fromActive
  have : (h.setRef a n).alive.filter (fun b => (h.setRef a n).ref b ≠ 0) =
      insert a (h.alive.filter (fun b => h.ref b ≠ 0)) := by
    ext b
    rw [Finset.mem_filter, Finset.mem_insert, Finset.mem_filter]
    simp only [H.setRef]
    by_cases e : b = a
    · subst e; simp [ha, hn]
    · simp [e]
  rw [this, Finset.sum_insert (by simp [h0])]
  show (h.children a).count x + _ = _
  rw [Nat.add_comm]; rfl

theorem fromActive_setRef_off {h : H A} {a : A} (ha : a ∈ h.alive) (h0 : h.ref a ≠ 0) (x : A) :
    (h.setRef a 0).fromActive x + (h.children a).count x = h.fromActive x := by
  have h1 := fromActive_setRef_on (h := h.setRef a 0) (a := a) (n := h.ref a) ha (by simp [H.setRef]) h0 x
  have h2 : (h.setRef a 0).setRef a (h.ref a) = h := by
    unfold H.setRef
    cases h
    simp only [H.mk.injEq, true_and, and_true]
    funext y; split
    · rename_i e; subst e; rfl
    · rfl
  rw [h2] at h1
  exact h1.symm

theorem WF.setRef {h : H A} (w : WF h) {a : A} (ha : a ∈ h.alive) (n : Nat) : WF (h.setRef a n) :=
  ⟨w.closed, w.level, fun x hx => by
    have : x ≠ a := by rintro rfl; exact hx ha
    simp [H.setRef, this]; exact w.dead x hx⟩

/-- Incrementing the children one after the other. -/
theorem incFold {M : Nat} {f : Nat} {B : A → Nat}
    (ih : ∀ {h : H A} {a : A} {p : List A}, WF h → a ∈ h.alive → h.level a < f → IncOwed M h B (a :: p) →
      ∃ h', incRef M f h a = some h' ∧ Same h h' ∧ WF h' ∧ IncOwed M h' B p) :
    ∀ (cs : List A) {h : H A} {p : List A}, WF h → (∀ c ∈ cs, c ∈ h.alive ∧ h.level c < f) →
      IncOwed M h B (cs ++ p) →
      ∃ h', cs.foldlM (fun h c => incRef M f h c) h = some h' ∧ Same h h' ∧ WF h' ∧ IncOwed M h' B p := by
  intro cs
  induction cs with
  | nil => intro h p w _ ho; exact ⟨h, rfl, Same.refl h, w, ho⟩
  | cons c cs ihc =>
    intro h p w hc ho
    obtain ⟨h1, e1, s1, w1, o1⟩ := ih w (hc c (by simp)).1 (hc c (by simp)).2 ho
    obtain ⟨h2, e2, s2, w2, o2⟩ := ihc w1 (fun d hd => by
      rw [s1.alive, s1.level]; exact hc d (by simp [hd])) o1
    refine ⟨h2, ?_, s1.trans s2, w2, o2⟩
    simp only [List.foldlM_cons, e1]
    exact e2

theorem incRef_spec {M : Nat} {B : A → Nat} : ∀ (f : Nat) {h : H A} {a : A} {p : List A}, WF h →
    a ∈ h.alive → h.level a < f → IncOwed M h B (a :: p) →
    ∃ h', incRef M f h a = some h' ∧ Same h h' ∧ WF h' ∧ IncOwed M h' B p := by
  intro f
  induction f with
  | zero => intro h a p _ _ hl; exact absurd hl (Nat.not_lt_zero _)
  | succ f ih =>
    intro h a p w ha hl ho
    unfold incRef
    by_cases hM : h.ref a = M
    · refine ⟨h, by simp [hM], Same.refl h, w, ?_⟩
      intro x
      by_cases e : x = a
      · subst e; exact Or.inl hM
      · have := ho x
        rwa [List.count_cons_of_ne (Ne.symm e)] at this
    · simp only [hM, if_false]
      have href : (h.setRef a (h.ref a + 1)).ref a = h.ref a + 1 := by simp [H.setRef]
      have hrefne : ∀ x, x ≠ a → (h.setRef a (h.ref a + 1)).ref x = h.ref x := by
        intro x hx; simp [H.setRef, hx]
      rw [href]
      have w1 := w.setRef ha (h.ref a + 1)
      by_cases h0 : h.ref a = 0
      · simp only [h0, Nat.zero_add, if_true]
        rw [h0] at w1 href hrefne
        have ho1 : IncOwed M (h.setRef a (0 + 1)) B (h.children a ++ p) := by
          intro x
          rw [fromActive_setRef_on ha h0 (by simp), List.count_append]
          by_cases e : x = a
          · subst e
            rw [href]
            rcases ho x with h1 | h1
            · exact absurd h1 hM
            · rw [List.count_cons_self, h0] at h1
              right; omega
          · rw [hrefne x e]
            rcases ho x with h1 | h1
            · exact Or.inl h1
            · rw [List.count_cons_of_ne (Ne.symm e)] at h1
              right; omega
        obtain ⟨h2, e2, s2, w2, o2⟩ := incFold ih (h.children a) w1
          (fun c hc => ⟨w.closed a ha c hc, by have := w.level a ha c hc; simp only [H.setRef]; omega⟩) ho1
        exact ⟨h2, e2, ⟨s2.children, s2.level, s2.alive⟩, w2, o2⟩
      · have hne : ¬ h.ref a + 1 = 1 := by omega
        simp only [hne, if_false]
        refine ⟨_, rfl, ⟨rfl, rfl, rfl⟩, w1, ?_⟩
        intro x
        rw [fromActive_setRef_active h0 (by omega)]
        by_cases e : x = a
        · subst e
          rw [href]
          rcases ho x with h1 | h1
          · exact absurd h1 hM
          · rw [List.count_cons_self] at h1
            right; omega
        · rw [hrefne x e]
          rcases ho x with h1 | h1
          · exact Or.inl h1
          · rw [List.count_cons_of_ne (Ne.symm e)] at h1
            exact Or.inr h1

theorem decFold {M : Nat} {f : Nat} {B : A → Nat}
    (ih : ∀ {h : H A} {a : A} {p : List A}, WF h → a ∈ h.alive → h.level a < f → DecOwed M h B (a :: p) →
      ∃ h', decRef M f h a = some h' ∧ Same h h' ∧ WF h' ∧ DecOwed M h' B p) :
    ∀ (cs : List A) {h : H A} {p : List A}, WF h → (∀ c ∈ cs, c ∈ h.alive ∧ h.level c < f) →
      DecOwed M h B (cs ++ p) →
      ∃ h', cs.foldlM (fun h c => decRef M f h c) h = some h' ∧ Same h h' ∧ WF h' ∧ DecOwed M h' B p := by
  intro cs
  induction cs with
  | nil => intro h p w _ ho; exact ⟨h, rfl, Same.refl h, w, ho⟩
  | cons c cs ihc =>
    intro h p w hc ho
    obtain ⟨h1, e1, s1, w1, o1⟩ := ih w (hc c (by simp)).1 (hc c (by simp)).2 ho
    obtain ⟨h2, e2, s2, w2, o2⟩ := ihc w1 (fun d hd => by
      rw [s1.alive, s1.level]; exact hc d (by simp [hd])) o1
    refine ⟨h2, ?_, s1.trans s2, w2, o2⟩
    simp only [List.foldlM_cons, e1]
    exact e2

theorem decRef_spec {M : Nat} {B : A → Nat} : ∀ (f : Nat) {h : H A} {a : A} {p : List A}, WF h →
    a ∈ h.alive → h.level a < f → DecOwed M h B (a :: p) →
    ∃ h', decRef M f h a = some h' ∧ Same h h' ∧ WF h' ∧ DecOwed M h' B p := by
  intro f
  induction f with
  | zero => intro h a p _ _ hl; exact absurd hl (Nat.not_lt_zero _)
  | succ f ih =>
    intro h a p w ha hl ho
    unfold decRef
    by_cases hM : h.ref a = M
    · refine ⟨h, by simp [hM], Same.refl h, w, ?_⟩
      intro x
      by_cases e : x = a
      · subst e; exact Or.inl hM
      · have := ho x
        rwa [List.count_cons_of_ne (Ne.symm e)] at this
    · have hpos : h.ref a ≠ 0 := by
        rcases ho a with h1 | h1
        · exact absurd h1 hM
        · rw [List.count_cons_self] at h1; omega
      simp only [hM, hpos, if_false]
      have href : (h.setRef a (h.ref a - 1)).ref a = h.ref a - 1 := by simp [H.setRef]
      have hrefne : ∀ x, x ≠ a → (h.setRef a (h.ref a - 1)).ref x = h.ref x := by
        intro x hx; simp [H.setRef, hx]
      rw [href]
      have w1 := w.setRef ha (h.ref a - 1)
      by_cases h0 : h.ref a - 1 = 0
      · simp only [h0, if_true]
        rw [h0] at w1 href hrefne
        have ho1 : DecOwed M (h.setRef a 0) B (h.children a ++ p) := by
          intro x
          have hoff := fromActive_setRef_off ha hpos x
          rw [List.count_append]
          by_cases e : x = a
          · subst e
            rw [href]
            rcases ho x with h1 | h1
            · exact absurd h1 hM
            · rw [List.count_cons_self] at h1
              right; omega
          · rw [hrefne x e]
            rcases ho x with h1 | h1
            · exact Or.inl h1
            · rw [List.count_cons_of_ne (Ne.symm e)] at h1
              right; omega
        obtain ⟨h2, e2, s2, w2, o2⟩ := decFold ih (h.children a) w1
          (fun c hc => ⟨w.closed a ha c hc, by have := w.level a ha c hc; simp only [H.setRef]; omega⟩) ho1
        exact ⟨h2, e2, ⟨s2.children, s2.level, s2.alive⟩, w2, o2⟩
      · simp only [h0, if_false]
        refine ⟨_, rfl, ⟨rfl, rfl, rfl⟩, w1, ?_⟩
        intro x
        rw [fromActive_setRef_active hpos h0]
        by_cases e : x = a
        · subst e
          rw [href]
          rcases ho x with h1 | h1
          · exact absurd h1 hM
          · rw [List.count_cons_self] at h1
            right; omega
        · rw [hrefne x e]
          rcases ho x with h1 | h1
          · exact Or.inl h1
          · rw [List.count_cons_of_ne (Ne.symm e)] at h1
            exact Or.inr h1

end MQT.Ref

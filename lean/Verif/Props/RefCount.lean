import Verif.Memory.RefCount
import Mathlib.Algebra.Order.BigOperators.Group.Finset

set_option autoImplicit false

/-! C12: reference counting and garbage collection. -/

namespace MQT.Ref

set_option linter.unusedSectionVars false

variable {A : Type} [DecidableEq A]

/-- Client calls. -/
inductive Ev (A : Type) where
  | create (a : A) (cs : List A)
  | inc (a : A)
  | dec (a : A)
  | gc (reclaimed : Finset A)

/-- Specification: number of `incRef` minus number of `decRef` on a root. -/
def balance (tr : List (Ev A)) (a : A) : Nat :=
  tr.foldl (fun n e => match e with
    | .inc x => if x = a then n + 1 else n
    | .dec x => if x = a then n - 1 else n
    | _ => n) 0

/-- Specification: reachable from a root with positive balance. -/
def Needed (tr : List (Ev A)) (h : H A) (a : A) : Prop :=
  ∃ r, 0 < balance tr r ∧ Relation.ReflTransGen (fun x y => y ∈ h.children x) r a

/-- Executions: new nodes refer to existing nodes of lower level and reuse no existing address; roots
are existing nodes; `decRef` is only called on a root with positive balance. -/
inductive Exec (M : Nat) : List (Ev A) → H A → Prop where
  | init (ch lv) : Exec M [] ⟨ch, lv, fun _ => 0, ∅⟩
  | create {tr h a cs lvl} : Exec M tr h → a ∉ h.alive → (∀ c ∈ cs, c ∈ h.alive ∧ h.level c < lvl) →
      Exec M (tr ++ [.create a cs]) (h.create a cs lvl)
  | inc {tr h a h'} : Exec M tr h → a ∈ h.alive → incRef M (h.level a + 1) h a = some h' →
      Exec M (tr ++ [.inc a]) h'
  | dec {tr h a h'} : Exec M tr h → 0 < balance tr a → decRef M (h.level a + 1) h a = some h' →
      Exec M (tr ++ [.dec a]) h'
  | gc {tr h} : Exec M tr h → Exec M (tr ++ [.gc (h.alive \ h.gc.alive)]) h.gc

theorem balance_snoc (tr : List (Ev A)) (e : Ev A) (a : A) : balance (tr ++ [e]) a = match e with
    | .inc x => if x = a then balance tr a + 1 else balance tr a
    | .dec x => if x = a then balance tr a - 1 else balance tr a
    | _ => balance tr a := by
  unfold balance; rw [List.foldl_append]; cases e <;> rfl

structure Inv (M : Nat) (tr : List (Ev A)) (h : H A) : Prop where
  wf : WF h
  cnt : IncOwed M h (balance tr) []
  root : ∀ a, 0 < balance tr a → a ∈ h.alive

theorem Inv.exact {M : Nat} {tr : List (Ev A)} {h : H A} (i : Inv M tr h) (x : A) :
    h.ref x = M ∨ h.ref x = balance tr x + h.fromActive x := by
  have := i.cnt x; simpa using this

theorem Inv.inc {M : Nat} {tr : List (Ev A)} {h : H A} (i : Inv M tr h) {a : A} (ha : a ∈ h.alive) :
    ∃ h', incRef M (h.level a + 1) h a = some h' ∧ Inv M (tr ++ [.inc a]) h' := by
  have hb : IncOwed M h (balance (tr ++ [.inc a])) [a] := by
    intro x
    rcases i.exact x with h1 | h1
    · exact Or.inl h1
    · right
      rw [balance_snoc]
      simp only
      by_cases e : a = x
      · subst e; simp only [if_true, List.count_cons_self, List.count_nil]; omega
      · rw [if_neg e, List.count_cons_of_ne e, List.count_nil]; omega
  obtain ⟨h', e, s, w, o⟩ := incRef_spec (h.level a + 1) i.wf ha (Nat.lt_succ_self _) hb
  refine ⟨h', e, w, o, ?_⟩
  intro x hx
  rw [s.alive]
  rw [balance_snoc] at hx
  simp only at hx
  by_cases e' : a = x
  · subst e'; exact ha
  · rw [if_neg e'] at hx; exact i.root x hx

theorem Inv.dec {M : Nat} {tr : List (Ev A)} {h : H A} (i : Inv M tr h) {a : A} (ha : 0 < balance tr a) :
    ∃ h', decRef M (h.level a + 1) h a = some h' ∧ Inv M (tr ++ [.dec a]) h' := by
  have hb : DecOwed M h (balance (tr ++ [.dec a])) [a] := by
    intro x
    rcases i.exact x with h1 | h1
    · exact Or.inl h1
    · right
      rw [balance_snoc]
      simp only
      by_cases e : a = x
      · subst e; simp only [if_true, List.count_cons_self, List.count_nil]; omega
      · rw [if_neg e, List.count_cons_of_ne e, List.count_nil]; omega
  obtain ⟨h', e, s, w, o⟩ := decRef_spec (h.level a + 1) i.wf (i.root a ha) (Nat.lt_succ_self _) hb
  refine ⟨h', e, w, ?_, ?_⟩
  · intro x
    rcases o x with h1 | h1
    · exact Or.inl h1
    · right; simpa using h1
  · intro x hx
    rw [s.alive]
    rw [balance_snoc] at hx
    simp only at hx
    by_cases e' : a = x
    · subst e'; exact i.root a ha
    · rw [if_neg e'] at hx; exact i.root x hx

theorem Inv.active_closed {M : Nat} (hM : 0 < M) {tr : List (Ev A)} {h : H A} (i : Inv M tr h) {a c : A}
    (ha : a ∈ h.alive) (hr : h.ref a ≠ 0) (hc : c ∈ h.children a) : h.ref c ≠ 0 := by
  rcases i.exact c with h1 | h1
  · omega
  · have : (h.children a).count c ≤ h.fromActive c := by
      unfold H.fromActive
      exact Finset.single_le_sum (f := fun b => (h.children b).count c) (fun _ _ => Nat.zero_le _)
        (Finset.mem_filter.mpr ⟨ha, hr⟩)
    have := List.count_pos_iff.mpr hc
    omega

theorem Exec.inv {M : Nat} (hM : 0 < M) {tr : List (Ev A)} {h : H A} (e : Exec M tr h) : Inv M tr h := by
  induction e with
  | init ch lv =>
    refine ⟨⟨by simp, by simp, by simp⟩, ?_, by simp [balance]⟩
    intro x; right; simp [balance, H.fromActive]
  | @create tr h a cs lvl _ ha hcs ih =>
    have hne : ∀ c ∈ h.alive, c ≠ a := by rintro c hc rfl; exact ha hc
    refine ⟨⟨?_, ?_, ?_⟩, ?_, ?_⟩
    · intro b hb c hc
      simp only [H.create, Finset.mem_insert] at hb hc ⊢
      rcases hb with rfl | hb
      · simp only [if_true] at hc; exact Or.inr (hcs c hc).1
      · rw [if_neg (hne b hb)] at hc; exact Or.inr (ih.wf.closed b hb c hc)
    · intro b hb c hc
      simp only [H.create, Finset.mem_insert] at hb hc ⊢
      rcases hb with rfl | hb
      · simp only [if_true] at hc ⊢
        rw [if_neg (hne c (hcs c hc).1)]; exact (hcs c hc).2
      · rw [if_neg (hne b hb)] at hc ⊢
        rw [if_neg (hne c (ih.wf.closed b hb c hc))]
        exact ih.wf.level b hb c hc
    · intro b hb
      simp only [H.create, Finset.mem_insert, not_or] at hb ⊢
      exact ih.wf.dead b hb.2
    · have hfa : ∀ x, (h.create a cs lvl).fromActive x = h.fromActive x := by
        intro x
        unfold H.fromActive
        have : (h.create a cs lvl).alive.filter (fun b => (h.create a cs lvl).ref b ≠ 0) =
            h.alive.filter (fun b => h.ref b ≠ 0) := by
          ext b
          rw [Finset.mem_filter, Finset.mem_filter]
          constructor
          · rintro ⟨hb, h2⟩
            rcases Finset.mem_insert.mp hb with e | hb
            · rw [e] at h2; exact absurd (ih.wf.dead a ha) h2
            · exact ⟨hb, h2⟩
          · rintro ⟨hb, h2⟩; exact ⟨Finset.mem_insert_of_mem hb, h2⟩
        rw [this]
        apply Finset.sum_congr rfl
        intro b hb
        have := hne b (Finset.mem_filter.mp hb).1
        simp [H.create, this]
      intro x
      rw [hfa, balance_snoc]
      exact ih.cnt x
    · intro x hx
      rw [balance_snoc] at hx
      exact Finset.mem_insert_of_mem (ih.root x hx)
  | @inc tr h a h' _ ha e ih =>
    obtain ⟨h2, e2, i2⟩ := ih.inc ha
    rw [e] at e2
    rw [Option.some.inj e2]; exact i2
  | @dec tr h a h' _ ha e ih =>
    obtain ⟨h2, e2, i2⟩ := ih.dec ha
    rw [e] at e2
    rw [Option.some.inj e2]; exact i2
  | @gc tr h _ ih =>
    have hmem : ∀ b, b ∈ h.gc.alive ↔ b ∈ h.alive ∧ h.ref b ≠ 0 := by intro b; simp [H.gc]
    refine ⟨⟨?_, ?_, ?_⟩, ?_, ?_⟩
    · intro b hb c hc
      rw [hmem] at hb ⊢
      exact ⟨ih.wf.closed b hb.1 c hc, ih.active_closed hM hb.1 hb.2 hc⟩
    · intro b hb c hc
      rw [hmem] at hb; exact ih.wf.level b hb.1 c hc
    · intro b hb
      rw [hmem] at hb
      show h.ref b = 0
      by_contra hc
      exact hc (ih.wf.dead b (fun ha => hb ⟨ha, hc⟩))
    · intro x
      have : h.gc.fromActive x = h.fromActive x := by
        unfold H.fromActive
        apply Finset.sum_congr
        · ext b; simp [H.gc]
        · intro b _; rfl
      rw [this, balance_snoc]; exact ih.cnt x
    · intro x hx
      rw [balance_snoc] at hx
      rw [hmem]
      refine ⟨ih.root x hx, ?_⟩
      simp only at hx
      rcases ih.exact x with h1 | h1 <;> omega

theorem Inv.needed {M : Nat} (hM : 0 < M) {tr : List (Ev A)} {h : H A} (i : Inv M tr h) {a : A}
    (hn : Needed tr h a) : a ∈ h.alive ∧ h.ref a ≠ 0 := by
  obtain ⟨r, hr, hp⟩ := hn
  induction hp with
  | refl =>
    refine ⟨i.root r hr, ?_⟩
    rcases i.exact r with h1 | h1 <;> omega
  | tail _ hc ih => exact ⟨i.wf.closed _ ih.1 _ hc, i.active_closed hM ih.1 ih.2 hc⟩

theorem Inv.complete {M : Nat} {tr : List (Ev A)} {h : H A} (i : Inv M tr h)
    (hs : ∀ x, h.ref x ≠ M) : ∀ (k : Nat) (a : A), h.alive.sup h.level - h.level a ≤ k → h.ref a ≠ 0 →
    Needed tr h a := by
  intro k
  induction k with
  | zero =>
    intro a hk hr
    rcases i.exact a with h1 | h1
    · exact absurd h1 (hs a)
    · by_cases hb : 0 < balance tr a
      · exact ⟨a, hb, Relation.ReflTransGen.refl⟩
      · have hpos : h.fromActive a ≠ 0 := by omega
        obtain ⟨b, hb, hc⟩ := Finset.exists_ne_zero_of_sum_ne_zero hpos
        obtain ⟨hb1, hb2⟩ := Finset.mem_filter.mp hb
        have hmem : a ∈ h.children b := List.count_pos_iff.mp (Nat.pos_of_ne_zero hc)
        have h2 := i.wf.level b hb1 a hmem
        have h3 := Finset.le_sup (f := h.level) hb1
        omega
  | succ k ih =>
    intro a hk hr
    rcases i.exact a with h1 | h1
    · exact absurd h1 (hs a)
    · by_cases hb : 0 < balance tr a
      · exact ⟨a, hb, Relation.ReflTransGen.refl⟩
      · have hpos : h.fromActive a ≠ 0 := by omega
        obtain ⟨b, hb, hc⟩ := Finset.exists_ne_zero_of_sum_ne_zero hpos
        obtain ⟨hb1, hb2⟩ := Finset.mem_filter.mp hb
        have hmem : a ∈ h.children b := List.count_pos_iff.mp (Nat.pos_of_ne_zero hc)
        have h2 := i.wf.level b hb1 a hmem
        have h3 := Finset.le_sup (f := h.level) hb1
        obtain ⟨r, hr1, hr2⟩ := ih b (by omega) hb2
        exact ⟨r, hr1, hr2.tail hmem⟩

/-- **C12.** For every saturation bound `M > 0` and every balanced execution:
1. `incRef` on an existing node and `decRef` on a root with positive balance never fail an assertion;
2. garbage collection reclaims no node reachable from a root with positive balance (saturated counts
   included);
3. if no count is saturated, a node is kept exactly if it is reachable from such a root. -/
theorem c12_refcount_gc {M : Nat} (hM : 0 < M) {tr : List (Ev A)} {h : H A} (e : Exec M tr h) :
    (∀ a ∈ h.alive, ∃ h', incRef M (h.level a + 1) h a = some h') ∧
    (∀ a, 0 < balance tr a → ∃ h', decRef M (h.level a + 1) h a = some h') ∧
    (∀ a, Needed tr h a → a ∈ h.gc.alive) ∧
    ((∀ x, h.ref x ≠ M) → ∀ a, a ∈ h.gc.alive ↔ Needed tr h a) := by
  have i := e.inv hM
  have hmem : ∀ b, b ∈ h.gc.alive ↔ b ∈ h.alive ∧ h.ref b ≠ 0 := by intro b; simp [H.gc]
  refine ⟨fun a ha => ?_, fun a ha => ?_, fun a ha => (hmem a).mpr (i.needed hM ha), fun hs a => ?_⟩
  · obtain ⟨h', e', _⟩ := i.inc ha; exact ⟨h', e'⟩
  · obtain ⟨h', e', _⟩ := i.dec ha; exact ⟨h', e'⟩
  · rw [hmem]
    exact ⟨fun ⟨_, h2⟩ => i.complete hs _ a le_rfl h2, i.needed hM⟩

/-- The graph of the kept nodes is untouched by the collection. -/
theorem c12_gc_frame (h : H A) :
    h.gc.children = h.children ∧ h.gc.level = h.level ∧ h.gc.ref = h.ref := ⟨rfl, rfl, rfl⟩

/-- A concrete execution: node 2 uses node 1 twice; 2 is referenced and released, 3 stays. -/
example : ∃ (tr : List (Ev Nat)) (h : H Nat), Exec 4 tr h ∧ h.alive = {1, 3} ∧ h.ref 1 = 1 ∧
    balance tr 2 = 0 ∧ balance tr 3 = 1 :=
  ⟨_, _, .gc (.dec (a := 2) (.inc (a := 3) (.inc (a := 2) (.create (a := 3) (cs := [1]) (lvl := 1)
    (.create (a := 2) (cs := [1, 1]) (lvl := 1) (.create (a := 1) (cs := []) (lvl := 0)
    (.init (fun _ => []) (fun _ => 0)) (by decide) (by decide)) (by decide) (by decide)) (by decide)
    (by decide)) (by decide) rfl) (by decide) rfl) (by decide) rfl),
    by decide, by decide, by decide, by decide⟩

/-- A saturated count is never released: the node stays although nothing refers to it. -/
theorem c12_saturated_leaks : ∃ h, Exec (A := Nat) 1 [.create 1 [], .inc 1, .dec 1] h ∧
    1 ∈ h.gc.alive ∧ ¬ Needed [.create 1 [], .inc 1, .dec 1] h 1 := by
  refine ⟨_, .dec (a := 1) (.inc (a := 1) (.create (a := 1) (cs := []) (lvl := 0) (.init (fun _ => []) (fun _ => 0)) (by decide) (by decide))
    (by decide) rfl) (by decide) rfl, by decide, ?_⟩
  rintro ⟨r, hr, _⟩
  simp only [balance, List.foldl] at hr
  by_cases e : 1 = r <;> simp [e] at hr

end MQT.Ref

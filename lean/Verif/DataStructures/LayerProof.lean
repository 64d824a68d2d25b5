/-
Invariants of the graph of executable operations and of its construction (`Verif.DataStructures.Layer`).
-/
import Verif.DataStructures.Layer
import Mathlib.Algebra.BigOperators.Group.Finset.Basic
import Mathlib.Algebra.Order.BigOperators.Group.Finset
import Mathlib.Algebra.Order.Group.Int
import Mathlib.Data.List.Count
import Mathlib.Logic.Relation
import Mathlib.Tactic.Ring

set_option autoImplicit false

namespace MQT.Layer

open Function (update)

/-! ### Loops -/

theorem loop_append {α σ : Type} (f : σ → α → MQT.Res σ) (l₁ l₂ : List α) (s : σ) :
    loop f (l₁ ++ l₂) s = (loop f l₁ s).bind (loop f l₂) := by
  induction l₁ generalizing s with
  | nil => rfl
  | cons a l ih =>
    show (f s a).bind (loop f (l ++ l₂)) = ((f s a).bind (loop f l)).bind (loop f l₂)
    cases f s a with
    | ok s' => exact ih s'
    | throw => rfl
    | ub => rfl

/-! ### The graph -/

/-- The number of edges into `v` from the vertices in `S`. -/
def inEdges (n : ℕ) (en : ℕ → List ℕ) (S : ℕ → Bool) (v : ℕ) : ℕ :=
  ∑ u ∈ Finset.range n, if S u then (en u).count v else 0

/-- Vertex `v` is in the executable set exactly when it should be. -/
def SetOK (g : Graph) (v : ℕ) : Prop := v ∈ g.exec ↔ v < g.n ∧ g.isExecutable v = true

/-- The state of a graph with enabling edges only. -/
structure GInv (g : Graph) : Prop where
  dis : ∀ v, g.dis v = []
  edge : ∀ u, ∀ v ∈ g.en u, u < v ∧ v < g.n
  thr : ∀ v, g.thr v = inEdges g.n g.en (fun _ => true) v
  cnt : ∀ v, g.cnt v = inEdges g.n g.en g.done v
  done : ∀ v, g.n ≤ v → g.done v = false
  set : ∀ v, SetOK g v

theorem inEdges_eq_iff (n : ℕ) (en : ℕ → List ℕ) (S : ℕ → Bool) (v : ℕ) :
    inEdges n en S v = inEdges n en (fun _ => true) v ↔ ∀ u, u < n → v ∈ en u → S u = true := by
  unfold inEdges
  rw [Finset.sum_eq_sum_iff_of_le]
  · constructor
    · intro h u hu hv
      have := h u (Finset.mem_range.2 hu)
      by_contra hS
      rw [if_neg hS, if_pos rfl] at this
      exact absurd (List.count_pos_iff.2 hv) (by omega)
    · intro h u hu
      by_cases hv : v ∈ en u
      · rw [if_pos (h u (Finset.mem_range.1 hu) hv), if_pos rfl]
      · rw [List.count_eq_zero_of_not_mem hv]; simp
  · intro u _
    split_ifs <;> simp_all

theorem isExecutable_iff {g : Graph} (h : GInv g) (v : ℕ) :
    g.isExecutable v = true ↔ g.done v = false ∧ ∀ u, v ∈ g.en u → g.done u = true := by
  unfold Graph.isExecutable
  rw [Bool.and_eq_true, Bool.not_eq_true', beq_iff_eq, h.thr, h.cnt, Int.ofNat_inj, inEdges_eq_iff]
  refine and_congr_right fun _ => ⟨fun H u hu => ?_, fun H u _ hu => H u hu⟩
  have := h.edge u v hu
  exact H u (by omega) hu

theorem mem_exec {g : Graph} (h : GInv g) (v : ℕ) :
    v ∈ g.exec ↔ v < g.n ∧ g.done v = false ∧ ∀ u, v ∈ g.en u → g.done u = true := by
  rw [← isExecutable_iff h]; exact h.set v

theorem updateSet_exec (g : Graph) (v w : ℕ) :
    w ∈ (g.updateSet v).exec ↔ if w = v then g.isExecutable v = true else w ∈ g.exec := by
  unfold Graph.updateSet
  by_cases hw : w = v <;> by_cases he : g.isExecutable v <;> simp [hw, he]

@[simp] theorem updateSet_n (g : Graph) (v : ℕ) : (g.updateSet v).n = g.n := by
  unfold Graph.updateSet; split <;> rfl
@[simp] theorem updateSet_thr (g : Graph) (v : ℕ) : (g.updateSet v).thr = g.thr := by
  unfold Graph.updateSet; split <;> rfl
@[simp] theorem updateSet_cnt (g : Graph) (v : ℕ) : (g.updateSet v).cnt = g.cnt := by
  unfold Graph.updateSet; split <;> rfl
@[simp] theorem updateSet_en (g : Graph) (v : ℕ) : (g.updateSet v).en = g.en := by
  unfold Graph.updateSet; split <;> rfl
@[simp] theorem updateSet_dis (g : Graph) (v : ℕ) : (g.updateSet v).dis = g.dis := by
  unfold Graph.updateSet; split <;> rfl
@[simp] theorem updateSet_done (g : Graph) (v : ℕ) : (g.updateSet v).done = g.done := by
  unfold Graph.updateSet; split <;> rfl

@[simp] theorem updateSet_isExecutable (g : Graph) (v w : ℕ) : (g.updateSet v).isExecutable w = g.isExecutable w := by
  simp [Graph.isExecutable]

/-- Updating the set after a change that concerns `v` only. -/
theorem setOK_update {g g' : Graph} {v w : ℕ} (hv : v < g'.n) (hn : w ≠ v → (w < g.n ↔ w < g'.n))
    (hx : g'.exec = g.exec) (he : w ≠ v → g'.isExecutable w = g.isExecutable w) (h : w ≠ v → SetOK g w) :
    SetOK (g'.updateSet v) w := by
  unfold SetOK
  rw [updateSet_exec, updateSet_n, updateSet_isExecutable]
  by_cases hw : w = v
  · subst hw; simp [hv]
  · rw [if_neg hw, hx, he hw, ← hn hw]; exact h hw

theorem GInv.empty : GInv Graph.empty where
  dis _ := rfl
  edge u v h := by cases h
  thr v := by simp [Graph.empty, inEdges]
  cnt v := by simp [Graph.empty, inEdges]
  done v _ := rfl
  set v := by simp [SetOK, Graph.empty]

theorem GInv.en_ge {g : Graph} (h : GInv g) {u : ℕ} (hu : g.n ≤ u) : g.en u = [] := by
  rcases hl : g.en u with _ | ⟨v, l⟩
  · rfl
  · have := h.edge u v (by rw [hl]; exact List.mem_cons_self)
    omega

theorem inEdges_ge {g : Graph} (h : GInv g) (S : ℕ → Bool) {v : ℕ} (hv : g.n ≤ v) : inEdges g.n g.en S v = 0 := by
  unfold inEdges
  refine Finset.sum_eq_zero fun u _ => ?_
  split_ifs
  · exact List.count_eq_zero_of_not_mem fun hm => by have := h.edge u v hm; omega
  · rfl

theorem create_spec {g : Graph} (h : GInv g) :
    GInv g.create ∧ g.create.n = g.n + 1 ∧ g.create.en = g.en ∧ g.create.done = g.done := by
  have e1 : update g.en g.n [] = g.en := by rw [← h.en_ge le_rfl, Function.update_eq_self]
  have e2 : update g.done g.n false = g.done := by rw [← h.done g.n le_rfl, Function.update_eq_self]
  have e3 : update g.thr g.n 0 = g.thr := by
    have : g.thr g.n = 0 := by rw [h.thr, inEdges_ge h _ le_rfl]; rfl
    rw [← this, Function.update_eq_self]
  have e4 : update g.cnt g.n 0 = g.cnt := by
    have : g.cnt g.n = 0 := by rw [h.cnt, inEdges_ge h _ le_rfl]; rfl
    rw [← this, Function.update_eq_self]
  have e5 : update g.dis g.n [] = g.dis := by rw [← h.dis g.n, Function.update_eq_self]
  have e : g.create = Graph.updateSet { g with n := g.n + 1 } g.n := by
    unfold Graph.create; rw [e1, e2, e3, e4, e5]
  have hs : ∀ S v, inEdges (g.n + 1) g.en S v = inEdges g.n g.en S v := by
    intro S v
    unfold inEdges
    rw [Finset.sum_range_succ, h.en_ge le_rfl]; simp
  rw [e]
  refine ⟨⟨?_, ?_, ?_, ?_, ?_, ?_⟩, ?_, ?_, ?_⟩
  · intro v; simp [h.dis]
  · intro u v hv
    simp only [updateSet_en, updateSet_n] at hv ⊢
    have := h.edge u v hv; omega
  · intro v; simp [hs, h.thr]
  · intro v; simp [hs, h.cnt]
  · intro v hv
    simp only [updateSet_n, updateSet_done] at hv ⊢
    exact h.done v (by omega)
  · intro v
    exact setOK_update (g := g) (by simp) (fun hv => by simp; omega) rfl (fun _ => rfl) (fun _ => h.set v)
  · simp
  · simp
  · simp

theorem inEdges_add (n : ℕ) (en : ℕ → List ℕ) (S : ℕ → Bool) {u : ℕ} (hu : u < n) (v w : ℕ) :
    inEdges n (update en u (en u ++ [v])) S w = inEdges n en S w + if S u ∧ w = v then 1 else 0 := by
  unfold inEdges
  rw [← Finset.add_sum_erase _ _ (Finset.mem_range.2 hu),
    ← Finset.add_sum_erase (f := fun u => if S u then (en u).count w else 0) _ (Finset.mem_range.2 hu)]
  have : ∑ x ∈ (Finset.range n).erase u, (if S x then (update en u (en u ++ [v]) x).count w else 0)
      = ∑ x ∈ (Finset.range n).erase u, (if S x then (en x).count w else 0) := by
    refine Finset.sum_congr rfl fun x hx => ?_
    rw [Function.update_of_ne (Finset.ne_of_mem_erase hx)]
  rw [this]
  simp only [Function.update_self, List.count_append, List.count_singleton]
  by_cases hS : S u <;> by_cases hw : w = v
  · subst hw; simp [hS]; omega
  · have : ¬ v = w := fun h => hw h.symm
    simp [hS, hw, this]
  · simp [hS]
  · simp [hS]

theorem addEnabled_spec {g : Graph} (h : GInv g) {u v : ℕ} (huv : u < v) (hv : v < g.n) (hd : g.done u = false) :
    GInv (g.addEnabled u v) ∧ (g.addEnabled u v).n = g.n ∧
      (g.addEnabled u v).en = update g.en u (g.en u ++ [v]) ∧ (g.addEnabled u v).done = g.done := by
  unfold Graph.addEnabled
  refine ⟨⟨?_, ?_, ?_, ?_, ?_, ?_⟩, by simp, by simp, by simp⟩
  · intro w; simp [h.dis]
  · intro x w hw
    simp only [updateSet_en, updateSet_n] at hw ⊢
    by_cases hx : x = u
    · subst hx
      rw [Function.update_self, List.mem_append, List.mem_singleton] at hw
      rcases hw with hw | rfl
      · exact h.edge x w hw
      · exact ⟨huv, hv⟩
    · rw [Function.update_of_ne hx] at hw
      exact h.edge x w hw
  · intro w
    simp only [updateSet_thr, updateSet_en, updateSet_n]
    rw [inEdges_add _ _ _ (by omega)]
    by_cases hw : w = v
    · subst hw; rw [Function.update_self, h.thr]; simp
    · rw [Function.update_of_ne hw, h.thr]; simp [hw]
  · intro w
    simp only [updateSet_cnt, updateSet_en, updateSet_n, updateSet_done]
    rw [inEdges_add _ _ _ (by omega), h.cnt]; simp [hd]
  · intro w hw
    simp only [updateSet_n, updateSet_done] at hw ⊢
    exact h.done w hw
  · intro w
    refine setOK_update (g := g) hv (fun _ => Iff.rfl) rfl (fun hw => ?_) (fun _ => h.set w)
    simp [Graph.isExecutable, Function.update_of_ne hw]

/-! ### Executing -/

theorem inc_fold (l : List ℕ) (x : ℕ) (g : Graph) (hl : ∀ v ∈ l, v < g.n) (hs : ∀ v, v ≠ x → SetOK g v) :
    (l.foldl Graph.inc g).n = g.n ∧ (l.foldl Graph.inc g).en = g.en ∧ (l.foldl Graph.inc g).dis = g.dis ∧
      (l.foldl Graph.inc g).done = g.done ∧ (l.foldl Graph.inc g).thr = g.thr ∧
      (∀ v, (l.foldl Graph.inc g).cnt v = g.cnt v + l.count v) ∧ ∀ v, v ≠ x → SetOK (l.foldl Graph.inc g) v := by
  induction l generalizing g with
  | nil => exact ⟨rfl, rfl, rfl, rfl, rfl, fun v => by simp, hs⟩
  | cons a l ih =>
    rw [List.foldl_cons]
    have hn : (g.inc a).n = g.n := by simp [Graph.inc]
    obtain ⟨h1, h2, h3, h4, h5, h6, h7⟩ := ih (g.inc a)
      (fun v hv => by rw [hn]; exact hl v (List.mem_cons_of_mem _ hv)) (fun v hv => by
        refine setOK_update (g := g) (hl a List.mem_cons_self) (fun _ => Iff.rfl) rfl (fun hw => ?_) (fun _ => hs v hv)
        simp [Graph.isExecutable, Function.update_of_ne hw])
    refine ⟨h1.trans hn, h2.trans (by simp [Graph.inc]), h3.trans (by simp [Graph.inc]), h4.trans (by simp [Graph.inc]),
      h5.trans (by simp [Graph.inc]), fun v => ?_, h7⟩
    rw [h6 v, List.count_cons]
    simp only [Graph.inc, updateSet_cnt]
    by_cases hv : v = a
    · subst hv; rw [Function.update_self]; simp; ring
    · have : ¬ a = v := fun h => hv h.symm
      rw [Function.update_of_ne hv]; simp [this]

theorem inEdges_done (n : ℕ) (en : ℕ → List ℕ) (S : ℕ → Bool) {u : ℕ} (hu : u < n) (hS : S u = false) (v : ℕ) :
    inEdges n en (update S u true) v = inEdges n en S v + (en u).count v := by
  unfold inEdges
  rw [← Finset.add_sum_erase _ _ (Finset.mem_range.2 hu),
    ← Finset.add_sum_erase (f := fun u => if S u then (en u).count v else 0) _ (Finset.mem_range.2 hu)]
  have : ∑ x ∈ (Finset.range n).erase u, (if update S u true x then (en x).count v else 0)
      = ∑ x ∈ (Finset.range n).erase u, (if S x then (en x).count v else 0) := by
    refine Finset.sum_congr rfl fun x hx => ?_
    rw [Function.update_of_ne (Finset.ne_of_mem_erase hx)]
  rw [this]
  simp [hS]; omega

theorem execute_spec {g g' : Graph} (h : GInv g) {v : ℕ} (hv : v < g.n) (he : g.execute v = .ok g') :
    GInv g' ∧ g'.n = g.n ∧ g'.en = g.en ∧ g'.done = update g.done v true ∧ g.done v = false ∧
      ∀ u, v ∈ g.en u → g.done u = true := by
  unfold Graph.execute at he
  by_cases hx : g.isExecutable v
  swap
  · rw [if_neg hx] at he; cases he
  rw [if_pos hx] at he
  obtain ⟨hd, hp⟩ := (isExecutable_iff h v).1 hx
  rw [h.dis v, List.foldl_nil] at he
  injection he with he
  obtain ⟨h1, h2, h3, h4, h5, h6, h7⟩ := inc_fold (g.en v) v { g with done := update g.done v true }
    (fun w hw => (h.edge v w hw).2) (fun w hw => by
      have := h.set w
      simpa [SetOK, Graph.isExecutable, Function.update_of_ne hw] using this)
  subst he
  refine ⟨⟨?_, ?_, ?_, ?_, ?_, ?_⟩, by simpa using h1, by simpa using h2, by simpa using h4, hd, hp⟩
  · intro w; simp [h3, h.dis]
  · intro u w hw
    simp only [updateSet_en, updateSet_n, h1, h2] at hw ⊢
    exact h.edge u w hw
  · intro w; simp [h1, h2, h5, h.thr]
  · intro w
    simp only [updateSet_cnt, updateSet_en, updateSet_n, updateSet_done, h1, h2, h4, h6]
    rw [inEdges_done _ _ _ hv hd, h.cnt]; push_cast; rfl
  · intro w hw
    simp only [updateSet_n, updateSet_done, h1, h4] at hw ⊢
    rw [Function.update_of_ne (by omega)]; exact h.done w hw
  · intro w
    exact setOK_update (by rw [h1]; exact hv) (fun _ => Iff.rfl) rfl (fun _ => rfl) (fun hw => h7 w hw)

theorem executeAll_spec (l : List ℕ) {g g' : Graph} (h : GInv g) (hl : ∀ v ∈ l, v < g.n)
    (he : executeAll g l = .ok g') :
    GInv g' ∧ g'.n = g.n ∧ g'.en = g.en ∧ (∀ v, g'.done v = true ↔ g.done v = true ∨ v ∈ l) ∧ l.Nodup ∧
      (∀ v ∈ l, g.done v = false) ∧
      ∀ a v b, l = a ++ v :: b → ∀ u, v ∈ g.en u → g.done u = true ∨ u ∈ a := by
  induction l generalizing g with
  | nil =>
    injection he with he; subst he
    exact ⟨h, rfl, rfl, by simp, List.nodup_nil, by simp, fun a v b hab => by simp at hab⟩
  | cons x l ih =>
    have he' : (g.execute x).bind (loop Graph.execute l) = .ok g' := he
    cases hx : g.execute x with
    | throw => rw [hx] at he'; cases he'
    | ub => rw [hx] at he'; cases he'
    | ok g1 =>
      rw [hx] at he'
      obtain ⟨k, kn, ke, kd, hd, hp⟩ := execute_spec h (hl x List.mem_cons_self) hx
      obtain ⟨i1, i2, i3, i4, i5, i6, i7⟩ := ih k (fun v hv => by rw [kn]; exact hl v (List.mem_cons_of_mem _ hv)) he'
      have hxl : x ∉ l := fun hm => by
        have := i6 x hm
        rw [kd, Function.update_self] at this; cases this
      refine ⟨i1, i2.trans kn, i3.trans ke, fun v => ?_, List.nodup_cons.2 ⟨hxl, i5⟩, fun v hv => ?_, fun a v b hab u hu => ?_⟩
      · rw [i4, kd]
        by_cases hv : v = x
        · subst hv; simp
        · rw [Function.update_of_ne hv]; simp [hv]
      · rcases List.mem_cons.1 hv with rfl | hv
        · exact hd
        · have := i6 v hv
          rw [kd, Function.update_of_ne (fun e : v = x => hxl (e ▸ hv))] at this
          exact this
      · rcases a with _ | ⟨y, a⟩
        · injection hab with e1 e2; subst e1; exact Or.inl (hp u hu)
        · injection hab with e1 e2; subst e1
          rcases i7 a v b e2 u (by rw [ke]; exact hu) with hh | hh
          · rw [kd] at hh
            by_cases hux : u = x
            · subst hux; exact Or.inr List.mem_cons_self
            · rw [Function.update_of_ne hux] at hh; exact Or.inl hh
          · exact Or.inr (List.mem_cons_of_mem _ hh)

/-- As long as something has not been executed, something is executable. -/
theorem exec_nonempty {g : Graph} (h : GInv g) {v : ℕ} (hv : v < g.n) (hd : g.done v = false) : ∃ w, w ∈ g.exec := by
  induction v using Nat.strong_induction_on with
  | _ v ih =>
    by_cases hp : ∀ u, v ∈ g.en u → g.done u = true
    · exact ⟨v, (mem_exec h v).2 ⟨hv, hd, hp⟩⟩
    · push Not at hp
      obtain ⟨u, hu, hud⟩ := hp
      have := h.edge u v hu
      exact ih u this.1 (by omega) (by simpa using hud)

theorem execute_ok {g : Graph} (h : GInv g) {v : ℕ} (hv : v ∈ g.exec) : ∃ g', g.execute v = .ok g' := by
  unfold Graph.execute
  rw [if_pos ((h.set v).1 hv).2]; exact ⟨_, rfl⟩

/-! ### Construction -/

/-- `v` has to wait for `u`. -/
def Reach (en : ℕ → List ℕ) : ℕ → ℕ → Prop := Relation.TransGen fun u v => v ∈ en u

/-- Edges are kept. -/
def Le (en en' : ℕ → List ℕ) : Prop := ∀ u v, v ∈ en u → v ∈ en' u

theorem Reach.mono {en en' : ℕ → List ℕ} (h : Le en en') {u v : ℕ} (hr : Reach en u v) : Reach en' u v :=
  Relation.TransGen.mono (fun a b hab => h a b hab) _ _ hr

theorem Reach.lt {g : Graph} (h : GInv g) {u v : ℕ} (hr : Reach g.en u v) : u < v := by
  induction hr with
  | single hab => exact (h.edge _ _ hab).1
  | tail _ hbc ih => exact ih.trans (h.edge _ _ hbc).1

theorem addEnabled_fold (l : List ℕ) {g : Graph} (h : GInv g) {c : ℕ} (hl : ∀ p ∈ l, p < c) (hc : c < g.n)
    (hd : ∀ v, g.done v = false) :
    GInv (l.foldl (fun g p => g.addEnabled p c) g) ∧ (l.foldl (fun g p => g.addEnabled p c) g).n = g.n ∧
      (∀ v, (l.foldl (fun g p => g.addEnabled p c) g).done v = false) ∧
      Le g.en (l.foldl (fun g p => g.addEnabled p c) g).en ∧
      (∀ p ∈ l, c ∈ (l.foldl (fun g p => g.addEnabled p c) g).en p) ∧
      ∀ u v, v ∈ (l.foldl (fun g p => g.addEnabled p c) g).en u → v ∈ g.en u ∨ v = c ∧ u ∈ l := by
  induction l generalizing g with
  | nil => exact ⟨h, rfl, hd, fun _ _ hv => hv, by simp, fun u v hv => Or.inl hv⟩
  | cons a l ih =>
    rw [List.foldl_cons]
    obtain ⟨k1, k2, k3, k4⟩ := addEnabled_spec h (hl a List.mem_cons_self) hc (hd a)
    obtain ⟨i1, i2, i3, i4, i5, i6⟩ := ih k1 (fun p hp => hl p (List.mem_cons_of_mem _ hp)) (by rw [k2]; exact hc)
      (fun v => by rw [k4]; exact hd v)
    refine ⟨i1, i2.trans k2, i3, fun u v hv => i4 u v ?_, fun p hp => ?_, fun u v hv => ?_⟩
    · rw [k3]
      by_cases hu : u = a
      · subst hu; rw [Function.update_self]; exact List.mem_append_left _ hv
      · rw [Function.update_of_ne hu]; exact hv
    · rcases List.mem_cons.1 hp with rfl | hp
      · refine i4 p c ?_
        rw [k3, Function.update_self]; exact List.mem_append_right _ List.mem_cons_self
      · exact i5 p hp
    · rcases i6 u v hv with H | H
      · rw [k3] at H
        by_cases hu : u = a
        · subst hu
          rw [Function.update_self, List.mem_append, List.mem_singleton] at H
          exact H.imp_right fun e => ⟨e, List.mem_cons_self⟩
        · rw [Function.update_of_ne hu] at H; exact Or.inl H
      · exact Or.inr ⟨H.1, List.mem_cons_of_mem _ H.2⟩

/-- What is assumed of the tables: commutation at a qubit is an equivalence relation on the operations using it. -/
structure CommOK (T : Tables) (m : ℕ) : Prop where
  refl : ∀ q a, a < m → q ∈ T.used a → T.comm a a q = true
  euclid : ∀ q a b c, a < m → b < m → c < m → q ∈ T.used a → q ∈ T.used b → q ∈ T.used c →
    T.comm a b q = true → T.comm a c q = true → T.comm b c q = true

/-- Operations that need not be ordered because of qubit `q`. -/
def Free (T : Tables) (commutable : Bool) (q i j : ℕ) : Prop := i = j ∨ commutable = true ∧ T.comm i j q = true

/-- No operation occurs twice on a qubit, or commutation is not used anyway. -/
def Sharp (T : Tables) (m : ℕ) (commutable : Bool) : Prop :=
  commutable = false ∨ ∀ i j q, i < j → j < m → q ∈ T.used i → q ∈ T.used j → T.eq i j = false

/-- Every edge is there because of a qubit on which the operations from `u` to `v` do not all commute with `u`. -/
def Justified (T : Tables) (commutable : Bool) (en : ℕ → List ℕ) : Prop :=
  ∀ u v, v ∈ en u → ∃ q w, q ∈ T.used u ∧ q ∈ T.used v ∧ q ∈ T.used w ∧ u < w ∧ w ≤ v ∧ ¬ Free T commutable q u w

/-- The variables of one qubit while no pair has been cancelled. -/
structure QCore (T : Tables) (m : ℕ) (commutable : Bool) (en : ℕ → List ℕ) (q : ℕ) (s : QState) : Prop where
  con : s.constructive = []
  des : s.destructive = []
  parts : ∃ older, s.qops = older ++ s.group ∧ (older ≠ [] → s.pred ≠ []) ∧ (∀ p ∈ s.pred, p ∈ older) ∧
    (∀ i ∈ older, i ∈ s.pred ∨ ∀ p ∈ s.pred, Reach en i p) ∧
    (∀ i ∈ older, ∀ j ∈ s.group, Reach en i j) ∧
    (∀ i ∈ s.group, ∀ j ∈ s.group, Free T commutable q i j) ∧
    (∀ i ∈ older, ∀ j ∈ older, Free T commutable q i j ∨ Reach en i j ∨ Reach en j i)
  up : ∀ u ∈ s.qops, ∀ w ∈ s.qops, ∀ v ∈ s.qops, u < w → w ≤ v → ¬ Free T commutable q u w → Reach en u v
  head : Sharp T m commutable → ∀ p ∈ s.pred, ∀ w, s.group.head? = some w → p < w ∧ q ∈ T.used w ∧ ¬ Free T commutable q p w
  sorted : ∀ w, s.group.head? = some w → ∀ v ∈ s.group, w ≤ v
  start : s.group = [] → s.pred = []

theorem QCore.mono {T : Tables} {m : ℕ} {commutable : Bool} {en en' : ℕ → List ℕ} {q : ℕ} {s : QState}
    (hm : Le en en') (h : QCore T m commutable en q s) : QCore T m commutable en' q s := by
  obtain ⟨h1, h2, ⟨o, p1, p2, p3, p4, p5, p6, p7⟩, h3, h4, h5, h6⟩ := h
  refine ⟨h1, h2, ⟨o, p1, p2, p3, fun i hi => (p4 i hi).imp_right fun H p hp => (H p hp).mono hm,
    fun i hi j hj => (p5 i hi j hj).mono hm, p6, fun i hi j hj => ?_⟩,
    fun u hu w hw v hv huw hwv hf => (h3 u hu w hw v hv huw hwv hf).mono hm, h4, h5, h6⟩
  rcases p7 i hi j hj with H | H | H
  · exact Or.inl H
  · exact Or.inr (Or.inl (H.mono hm))
  · exact Or.inr (Or.inr (H.mono hm))

theorem QCore.look {T : Tables} {m : ℕ} {commutable : Bool} {en : ℕ → List ℕ} {q : ℕ} {s : QState} (l : Option ℕ)
    (h : QCore T m commutable en q s) : QCore T m commutable en q { s with look := l } := by
  obtain ⟨h1, h2, h3, h4, h5, h6, h7⟩ := h
  exact ⟨h1, h2, h3, h4, h5, h6, h7⟩

/-- All operations of the qubit that have been placed. -/
theorem QCore.pairs {T : Tables} {m : ℕ} {commutable : Bool} {en : ℕ → List ℕ} {q : ℕ} {s : QState}
    (h : QCore T m commutable en q s) : ∀ i ∈ s.qops, ∀ j ∈ s.qops,
      Free T commutable q i j ∨ Reach en i j ∨ Reach en j i := by
  obtain ⟨h1, h2, ⟨o, p1, p2, p3, p4, p5, p6, p7⟩, -, -, -, -⟩ := h
  intro i hi j hj
  rw [p1, List.mem_append] at hi hj
  rcases hi with hi | hi <;> rcases hj with hj | hj
  · exact p7 i hi j hj
  · exact Or.inr (Or.inl (p5 i hi j hj))
  · exact Or.inr (Or.inr (p5 j hj i hi))
  · exact Or.inl (p6 i hi j hj)

theorem place_spec {T : Tables} {m : ℕ} (hT : CommOK T m) {commutable dup : Bool} {q c : ℕ} {g : Graph} {s : QState}
    (hg : GInv g) (hd : ∀ v, g.done v = false) (hs : QCore T m commutable g.en q s) (hq : ∀ i ∈ s.qops, i < c ∧ q ∈ T.used i)
    (hc : c < g.n) (hcm : c < m) (hcq : q ∈ T.used c) :
    GInv (place T commutable dup q c g s).1 ∧ (place T commutable dup q c g s).1.n = g.n ∧
      (∀ v, (place T commutable dup q c g s).1.done v = false) ∧ Le g.en (place T commutable dup q c g s).1.en ∧
      QCore T m commutable (place T commutable dup q c g s).1.en q (place T commutable dup q c g s).2 ∧
      (place T commutable dup q c g s).2.qops = s.qops ++ [c] ∧
      (place T commutable dup q c g s).2.look = s.look ∧
      (Sharp T m commutable → Justified T commutable g.en → Justified T commutable (place T commutable dup q c g s).1.en) := by
  obtain ⟨h1, h2, ⟨o, p1, p2, p3, p4, p5, p6, p7⟩, hup, hhead, hsorted, hstart⟩ := hs
  -- the group that the operation joins
  have key : ∀ pred group older : List ℕ, s.qops = older ++ group → (older ≠ [] → pred ≠ []) → (∀ p ∈ pred, p ∈ older) →
      (∀ i ∈ older, i ∈ pred ∨ ∀ p ∈ pred, Reach g.en i p) → (∀ i ∈ older, ∀ j ∈ group, Reach g.en i j) →
      (∀ i ∈ group ++ [c], ∀ j ∈ group ++ [c], Free T commutable q i j) →
      (∀ i ∈ older, ∀ j ∈ older, Free T commutable q i j ∨ Reach g.en i j ∨ Reach g.en j i) →
      (Sharp T m commutable → ∀ p ∈ pred, ∀ w, (group ++ [c]).head? = some w →
        p < w ∧ q ∈ T.used w ∧ ¬ Free T commutable q p w) →
      (∀ w, (group ++ [c]).head? = some w → ∀ v ∈ group ++ [c], w ≤ v) →
      GInv (pred.foldl (fun g p => g.addEnabled p c) g) ∧ (pred.foldl (fun g p => g.addEnabled p c) g).n = g.n ∧
      (∀ v, (pred.foldl (fun g p => g.addEnabled p c) g).done v = false) ∧
      Le g.en (pred.foldl (fun g p => g.addEnabled p c) g).en ∧
      QCore T m commutable (pred.foldl (fun g p => g.addEnabled p c) g).en q
        { s with pred := pred, group := group ++ [c], qops := s.qops ++ [c] } ∧
      (Sharp T m commutable → Justified T commutable g.en →
        Justified T commutable (pred.foldl (fun g p => g.addEnabled p c) g).en) := by
    intro pred group older r1 r2 r3 r4 r5 r6 r7 r8 r9
    obtain ⟨a1, a2, a3, a4, a5, a6⟩ := addEnabled_fold pred hg (c := c)
      (fun p hp => (hq p (by rw [r1]; exact List.mem_append_left _ (r3 p hp))).1) hc hd
    have toc : ∀ i ∈ older, Reach (pred.foldl (fun g p => g.addEnabled p c) g).en i c := fun i hi => by
      rcases r4 i hi with H | H
      · exact .single (a5 i H)
      · obtain ⟨p, hp⟩ := List.exists_mem_of_ne_nil _ (r2 (List.ne_nil_of_mem hi))
        exact ((H p hp).mono a4).tail (a5 p hp)
    refine ⟨a1, a2, a3, a4, ⟨h1, h2, ⟨older, ?_, r2, r3, fun i hi => (r4 i hi).imp_right fun H p hp => (H p hp).mono a4,
      fun i hi j hj => ?_, r6, fun i hi j hj => ?_⟩, fun u hu w hw v hv huw hwv hf => ?_, r8, r9, by simp⟩, fun hS hJ u v hv => ?_⟩
    · simp only [r1, List.append_assoc]
    · rcases List.mem_append.1 hj with hj | hj
      · exact (r5 i hi j hj).mono a4
      · rw [List.mem_singleton.1 hj]; exact toc i hi
    rotate_left
    · -- operations that do not commute are ordered
      simp only [List.mem_append, List.mem_singleton] at hu hw hv
      have hvc : v ≤ c := hv.elim (fun H => (hq v H).1.le) (fun H => H.le)
      have huq : u ∈ s.qops := hu.resolve_right (by omega)
      by_cases hvq : v = c
      · rw [hvq]
        rw [r1, List.mem_append] at huq
        rcases huq with ho | hgu
        · exact toc u ho
        · refine absurd (r6 u (List.mem_append_left _ hgu) w ?_) hf
          rcases hw with hw | hw
          · rw [r1, List.mem_append] at hw
            rcases hw with hw | hw
            · have := (r5 w hw u hgu).lt hg; omega
            · exact List.mem_append_left _ hw
          · rw [hw]; exact List.mem_append_right _ List.mem_cons_self
      · exact (hup u huq w (hw.resolve_right (by
          rcases hv with H | H
          · have := (hq v H).1; omega
          · exact absurd H hvq)) v (hv.resolve_right hvq) huw hwv hf).mono a4
    · rcases a6 u v hv with H | ⟨rfl, H⟩
      · exact hJ u v H
      · obtain ⟨w, hw⟩ : ∃ w, (group ++ [v]).head? = some w := by
          cases group
          · exact ⟨_, rfl⟩
          · exact ⟨_, rfl⟩
        obtain ⟨b1, b2, b3⟩ := r8 hS u H w hw
        exact ⟨q, w, (hq u (by rw [r1]; exact List.mem_append_left _ (r3 u H))).2, hcq, b2, b1,
          r9 w hw v (List.mem_append_right _ List.mem_cons_self), b3⟩
    · rcases r7 i hi j hj with H | H | H
      · exact Or.inl H
      · exact Or.inr (Or.inl (H.mono a4))
      · exact Or.inr (Or.inr (H.mono a4))
  unfold place
  simp only [h1, h2, List.foldl_nil]
  rcases hgr : s.group with _ | ⟨g0, l⟩
  · have hpr := hstart hgr
    obtain ⟨j1, j2, j3, j4, j5, j6⟩ := key s.pred s.group o p1 p2 p3 p4 p5 (by simp [hgr, Free]) p7 (by simp [hpr])
      (by simp [hgr])
    simp only [h1, h2, hgr, List.nil_append] at j5
    simpa using ⟨j1, j2, j3, j4, j5, j6⟩
  · have hmem : ∀ i ∈ g0 :: l, i < m ∧ q ∈ T.used i ∧ i < c := fun i hi => by
      have := hq i (by rw [p1, hgr]; exact List.mem_append_right _ hi)
      exact ⟨by omega, this.2, this.1⟩
    have m0 := hmem g0 List.mem_cons_self
    have h00 := hT.refl q g0 m0.1 m0.2.1
    have toG : ∀ i ∈ g0 :: l, ∀ j ∈ g0 :: l, Free T commutable q i j := by rw [← hgr]; exact p6
    by_cases hf : (!commutable || !T.comm g0 c q || (dup && (g0 :: l).any fun v => T.eq v c)) = true
    · obtain ⟨j1, j2, j3, j4, j5, j6⟩ := key (g0 :: l) [] (o ++ (g0 :: l)) (by rw [List.append_nil, ← hgr]; exact p1)
        (fun _ => by simp) (fun p hp => List.mem_append_right _ hp)
        (fun i hi => (List.mem_append.1 hi).elim (fun H => Or.inr fun p hp => p5 i H p (by rw [hgr]; exact hp)) Or.inl) (by simp)
        (by simp [Free])
        (fun i hi j hj => by
          rw [← hgr] at hi hj
          rcases List.mem_append.1 hi with hi | hi <;> rcases List.mem_append.1 hj with hj | hj
          · exact p7 i hi j hj
          · exact Or.inr (Or.inl (p5 i hi j hj))
          · exact Or.inr (Or.inr (p5 j hj i hi))
          · exact Or.inl (p6 i hi j hj))
        (fun hS p hp w hw => by
          simp only [List.nil_append, List.head?_cons, Option.some.injEq] at hw
          subst hw
          have mp := hmem p hp
          refine ⟨mp.2.2, hcq, fun hfree => ?_⟩
          rcases hfree with e | ⟨e1, e2⟩
          · omega
          have hg0c : T.comm g0 c q = true := by
            rcases toG p hp g0 List.mem_cons_self with e | ⟨-, e⟩
            · rw [← e]; exact e2
            · exact hT.euclid q p g0 c mp.1 m0.1 hcm mp.2.1 m0.2.1 hcq e e2
          rw [e1, hg0c] at hf
          simp only [Bool.not_true, Bool.false_or, Bool.and_eq_true, List.any_eq_true] at hf
          obtain ⟨-, v, hv, hve⟩ := hf
          rcases hS with hS | hS
          · rw [e1] at hS; cases hS
          · rw [hS v c q (hmem v hv).2.2 hcm (hmem v hv).2.1 hcq] at hve; cases hve)
        (by simp)
      simp only [hf, if_true]
      simp only [h1, h2] at j5
      exact ⟨j1, j2, j3, j4, j5, trivial, trivial, j6⟩
    · simp only [Bool.or_eq_true, Bool.not_eq_true', not_or] at hf
      have hcm' : commutable = true := by simpa using hf.1.1
      have h0c : T.comm g0 c q = true := by simpa using hf.1.2
      have h0 : ∀ i ∈ (g0 :: l) ++ [c], T.comm g0 i q = true ∧ i < m ∧ q ∈ T.used i := fun i hi => by
        rcases List.mem_append.1 hi with hi | hi
        · refine ⟨?_, (hmem i hi).1, (hmem i hi).2.1⟩
          rcases toG g0 List.mem_cons_self i hi with H | H
          · rw [← H]; exact h00
          · exact H.2
        · rw [List.mem_singleton.1 hi]; exact ⟨h0c, hcm, hcq⟩
      obtain ⟨j1, j2, j3, j4, j5, j6⟩ := key s.pred s.group o p1 p2 p3 p4 p5 (fun i hi j hj => by
          rw [hgr] at hi hj
          exact Or.inr ⟨hcm', hT.euclid q g0 i j m0.1 (h0 i hi).2.1 (h0 j hj).2.1
            m0.2.1 (h0 i hi).2.2 (h0 j hj).2.2 (h0 i hi).1 (h0 j hj).1⟩) p7
        (fun hS p hp w hw => hhead hS p hp w (by rw [hgr] at hw ⊢; exact hw))
        (fun w hw v hv => by
          rcases List.mem_append.1 hv with hv | hv
          · exact hsorted w (by rw [hgr] at hw ⊢; exact hw) v hv
          · rw [hgr] at hw
            simp only [List.cons_append, List.head?_cons, Option.some.injEq] at hw
            rw [List.mem_singleton.1 hv, ← hw]; exact m0.2.2.le)
      have hf' : (!commutable || !T.comm g0 c q || (dup && (g0 :: l).any fun v => T.eq v c)) = false := by
        simp only [hcm', h0c, Bool.not_true, Bool.false_or]
        simpa [hcm', h0c] using hf.2
      simp only [hf', Bool.false_eq_true, if_false]
      simp only [h1, h2, hgr] at j5
      exact ⟨j1, j2, j3, j4, j5, trivial, trivial, j6⟩

/-- The state after `k` operations and, of operation `k`, the qubits in `V`; `n` vertices exist. -/
structure CInv (T : Tables) (m : ℕ) (commutable : Bool) (k n : ℕ) (V : List ℕ) (st : Graph × (ℕ → QState)) : Prop where
  graph : GInv st.1
  num : st.1.n = n
  done : ∀ v, st.1.done v = false
  core : ∀ q, QCore T m commutable st.1.en q (st.2 q)
  mem : ∀ q i, (i ∈ (st.2 q).qops ∨ (st.2 q).look = some i) ↔ q ∈ T.used i ∧ (i < k ∨ i = k ∧ q ∈ V)
  order : ∀ q i l, i ∈ (st.2 q).qops → (st.2 q).look = some l → i < l
  just : Sharp T m commutable → Justified T commutable st.1.en

/-- No operation is followed, on one of its qubits, by its inverse. -/
def NoInverse (T : Tables) (m : ℕ) : Prop :=
  ∀ q i j, i < j → j < m → q ∈ T.used i → q ∈ T.used j → (∀ k, i < k → k < j → q ∉ T.used k) → T.inv i j = some false

theorem visit_spec {T : Tables} {m nq : ℕ} (hT : CommOK T m) (hI : NoInverse T m) {commutable : Bool} {k q : ℕ}
    {V : List ℕ} {st : Graph × (ℕ → QState)} (h : CInv T m commutable k (k + 1) V st) (hk : k < m) (hq : q < nq)
    (hu : q ∈ T.used k) (hV : q ∉ V) :
    ∃ st', visit T nq commutable k st q = .ok st' ∧ CInv T m commutable k (k + 1) (V ++ [q]) st' := by
  have hlt : ∀ i, (i ∈ (st.2 q).qops ∨ (st.2 q).look = some i) → i < k := fun i hi => by
    rcases ((h.mem q i).1 hi).2 with H | H
    · exact H
    · exact absurd H.2 hV
  have memV : ∀ i, (q ∈ T.used i ∧ (i < k ∨ i = k ∧ q ∈ V ++ [q])) ↔ (q ∈ T.used i ∧ (i < k ∨ i = k ∧ q ∈ V)) ∨ i = k := by
    intro i
    constructor
    · rintro ⟨h1, h2 | h2⟩
      · exact Or.inl ⟨h1, Or.inl h2⟩
      · exact Or.inr h2.1
    · rintro (⟨h1, h2 | h2⟩ | rfl)
      · exact ⟨h1, Or.inl h2⟩
      · exact absurd h2.2 hV
      · exact ⟨hu, Or.inr ⟨rfl, by simp⟩⟩
  have memO : ∀ q', q' ≠ q → ∀ i, (i < k ∨ i = k ∧ q' ∈ V ++ [q]) ↔ (i < k ∨ i = k ∧ q' ∈ V) := by
    intro q' hne i; simp [hne]
  unfold visit
  rw [if_neg (by omega)]
  rcases hl : (st.2 q).look with _ | cur
  · refine ⟨_, rfl, h.graph, h.num, h.done, fun q' => ?_, fun q' i => ?_, fun q' i l hi hlo => ?_, h.just⟩
    · by_cases e : q' = q
      · subst e; simp only [Function.update_self]; exact (h.core q').look _
      · simp only [Function.update_of_ne e]; exact h.core q'
    · by_cases e : q' = q
      · subst e; simp only [Function.update_self]
        rw [memV, ← h.mem q' i, hl]
        simp only [reduceCtorEq, or_false, Option.some.injEq, eq_comm]
      · simp only [Function.update_of_ne e]
        rw [h.mem, memO q' e]
    · by_cases e : q' = q
      · subst e; simp only [Function.update_self, Option.some.injEq] at hi hlo
        rw [← hlo]; exact hlt i (Or.inl hi)
      · simp only [Function.update_of_ne e] at hi hlo; exact h.order q' i l hi hlo
  · have hcur := (h.mem q cur).1 (Or.inr hl)
    have hck : cur < k := hlt cur (Or.inr hl)
    have hinv : T.inv cur k = some false := hI q cur k hck hk hcur.1 hu fun j h1 h2 hj => by
      rcases (h.mem q j).2 ⟨hj, Or.inl h2⟩ with H | H
      · have := h.order q j cur H hl; omega
      · rw [hl] at H; injection H with H; omega
    simp only [hinv, Bool.false_and, Bool.false_eq_true, if_false]
    obtain ⟨a1, a2, a3, a4, a5, a6, a7, a8⟩ := place_spec hT (dup := true) (c := cur) h.graph h.done ((h.core q).look (some k))
      (fun i hi => ⟨h.order q i cur hi hl, ((h.mem q i).1 (Or.inl hi)).1⟩) (by rw [h.num]; omega) (by omega) hcur.1
    refine ⟨_, rfl, a1, a2.trans h.num, a3, fun q' => ?_, fun q' i => ?_, fun q' i l hi hlo => ?_, fun hS => a8 hS (h.just hS)⟩
    · by_cases e : q' = q
      · subst e; simp only [Function.update_self]; exact a5
      · simp only [Function.update_of_ne e]; exact (h.core q').mono a4
    · by_cases e : q' = q
      · subst e; simp only [Function.update_self]
        rw [memV, ← h.mem q' i, hl, a6, a7]
        simp only [List.mem_append, List.mem_singleton, Option.some.injEq, eq_comm]
      · simp only [Function.update_of_ne e]
        rw [h.mem, memO q' e]
    · by_cases e : q' = q
      · subst e; simp only [Function.update_self] at hi hlo
        rw [a6, List.mem_append, List.mem_singleton] at hi
        rw [a7] at hlo
        injection hlo with hlo
        rcases hi with hi | rfl
        · rw [← hlo]; exact hlt i (Or.inl hi)
        · omega
      · simp only [Function.update_of_ne e] at hi hlo; exact h.order q' i l hi hlo

theorem visits_spec {T : Tables} {m nq : ℕ} (hT : CommOK T m) (hI : NoInverse T m) {commutable : Bool} {k : ℕ} (hk : k < m)
    (l : List ℕ) {V : List ℕ} {st : Graph × (ℕ → QState)} (h : CInv T m commutable k (k + 1) V st)
    (hl : ∀ q ∈ l, q < nq ∧ q ∈ T.used k) (hn : (V ++ l).Nodup) :
    ∃ st', loop (visit T nq commutable k) l st = .ok st' ∧ CInv T m commutable k (k + 1) (V ++ l) st' := by
  induction l generalizing V st with
  | nil => exact ⟨st, rfl, by rw [List.append_nil]; exact h⟩
  | cons q l ih =>
    have hq := hl q List.mem_cons_self
    obtain ⟨st1, e1, k1⟩ := visit_spec hT hI h hk hq.1 hq.2 (fun hm => by
      rw [List.nodup_append] at hn; exact hn.2.2 q hm q List.mem_cons_self rfl)
    obtain ⟨st2, e2, k2⟩ := ih k1 (fun q' h' => hl q' (List.mem_cons_of_mem _ h')) (by simpa using hn)
    refine ⟨st2, ?_, by simpa using k2⟩
    show (visit T nq commutable k st q).bind _ = _
    rw [e1]; exact e2

theorem addOp_spec {T : Tables} {m nq : ℕ} (hT : CommOK T m) (hI : NoInverse T m) {commutable : Bool} {k : ℕ} (hk : k < m)
    {st : Graph × (ℕ → QState)} (h : CInv T m commutable k k [] st) (hl : ∀ q ∈ T.used k, q < nq) (hn : (T.used k).Nodup) :
    ∃ st', addOp T nq commutable st k = .ok st' ∧ CInv T m commutable (k + 1) (k + 1) [] st' := by
  obtain ⟨c1, c2, c3, c4⟩ := create_spec h.graph
  have hc : CInv T m commutable k (k + 1) [] (st.1.create, st.2) :=
    ⟨c1, c2.trans (by rw [h.num]), fun v => by rw [c4]; exact h.done v, fun q => by rw [c3]; exact h.core q, h.mem, h.order,
      fun hS => by rw [c3]; exact h.just hS⟩
  obtain ⟨st', e, k'⟩ := visits_spec (nq := nq) hT hI hk (T.used k) hc (fun q hq => ⟨hl q hq, hq⟩) (by simpa using hn)
  refine ⟨st', e, k'.graph, k'.num, k'.done, k'.core, fun q i => ?_, k'.order, k'.just⟩
  rw [k'.mem]
  simp only [List.nil_append, List.not_mem_nil, and_false, or_false]
  constructor
  · rintro ⟨h1, h2 | h2⟩
    · exact ⟨h1, by omega⟩
    · exact ⟨h1, by omega⟩
  · rintro ⟨h1, h2⟩
    refine ⟨h1, ?_⟩
    by_cases e : i = k
    · subst e; exact Or.inr ⟨rfl, h1⟩
    · exact Or.inl (by omega)

theorem addOps_spec {T : Tables} {m nq : ℕ} (hT : CommOK T m) (hI : NoInverse T m) {commutable : Bool}
    (hl : ∀ k, k < m → (∀ q ∈ T.used k, q < nq) ∧ (T.used k).Nodup) (k : ℕ) (hk : k ≤ m) :
    ∃ st, loop (addOp T nq commutable) (List.range k) (Graph.empty, fun _ => {}) = .ok st ∧
      CInv T m commutable k k [] st := by
  induction k with
  | zero =>
    refine ⟨_, rfl, GInv.empty, rfl, fun _ => rfl, fun q => ⟨rfl, rfl, ⟨[], rfl, ?_, ?_, ?_, ?_, ?_, ?_⟩, ?_, ?_, ?_, ?_⟩,
      fun q i => ?_, fun q i l hi => ?_, fun _ u v hv => by cases hv⟩
    all_goals simp at *
  | succ k ih =>
    obtain ⟨st, e, h⟩ := ih (by omega)
    obtain ⟨st', e', h'⟩ := addOp_spec hT hI (by omega) h (hl k (by omega)).1 (hl k (by omega)).2
    refine ⟨st', ?_, h'⟩
    rw [List.range_succ, loop_append, e]
    show (addOp T nq commutable st k).bind _ = _
    rw [e']; rfl

/-- The state after the first `j` qubits have been flushed. -/
structure FInv (T : Tables) (m : ℕ) (commutable : Bool) (j : ℕ) (st : Graph × (ℕ → QState)) : Prop where
  graph : GInv st.1
  num : st.1.n = m
  done : ∀ v, st.1.done v = false
  core : ∀ q, QCore T m commutable st.1.en q (st.2 q)
  mem : ∀ q i, (i ∈ (st.2 q).qops ∨ (st.2 q).look = some i) ↔ q ∈ T.used i ∧ i < m
  order : ∀ q i l, i ∈ (st.2 q).qops → (st.2 q).look = some l → i < l
  just : Sharp T m commutable → Justified T commutable st.1.en
  flushed : ∀ q, q < j → (st.2 q).look = none

theorem flush_spec {T : Tables} {m : ℕ} (hT : CommOK T m) {commutable : Bool} {q : ℕ}
    {st : Graph × (ℕ → QState)} (h : FInv T m commutable q st) : FInv T m commutable (q + 1) (flush T commutable st q) := by
  unfold flush
  rcases hl : (st.2 q).look with _ | cur
  · refine ⟨h.graph, h.num, h.done, h.core, h.mem, h.order, h.just, fun q' hq' => ?_⟩
    by_cases e : q' = q
    · subst e; exact hl
    · exact h.flushed q' (by omega)
  · have hcur := (h.mem q cur).1 (Or.inr hl)
    obtain ⟨a1, a2, a3, a4, a5, a6, a7, a8⟩ := place_spec hT (dup := false) (c := cur) h.graph h.done ((h.core q).look none)
      (fun i hi => ⟨h.order q i cur hi hl, ((h.mem q i).1 (Or.inl hi)).1⟩) (by rw [h.num]; exact hcur.2) hcur.2 hcur.1
    refine ⟨a1, a2.trans h.num, a3, fun q' => ?_, fun q' i => ?_, fun q' i l hi hlo => ?_, fun hS => a8 hS (h.just hS), fun q' hq' => ?_⟩
    · by_cases e : q' = q
      · subst e; simp only [Function.update_self]; exact a5
      · simp only [Function.update_of_ne e]; exact (h.core q').mono a4
    · by_cases e : q' = q
      · subst e; simp only [Function.update_self]
        rw [← h.mem q' i, hl, a6, a7]
        simp only [List.mem_append, List.mem_singleton, Option.some.injEq, reduceCtorEq, or_false, eq_comm]
      · simp only [Function.update_of_ne e]
        rw [h.mem]
    · by_cases e : q' = q
      · subst e; simp only [Function.update_self] at hi hlo
        rw [a7] at hlo; cases hlo
      · simp only [Function.update_of_ne e] at hi hlo; exact h.order q' i l hi hlo
    · by_cases e : q' = q
      · subst e; simp only [Function.update_self]; exact a7
      · simp only [Function.update_of_ne e]; exact h.flushed q' (by omega)

theorem flushes_spec {T : Tables} {m : ℕ} (hT : CommOK T m) {commutable : Bool} {st : Graph × (ℕ → QState)}
    (h : FInv T m commutable 0 st) (j : ℕ) : FInv T m commutable j ((List.range j).foldl (flush T commutable) st) := by
  induction j with
  | zero => exact h
  | succ j ih => rw [List.range_succ, List.foldl_append]; exact flush_spec hT ih

/-- The graph that is constructed: operations sharing a qubit commute there or have to wait for each other in order. -/
theorem construct_spec {T : Tables} {m nq : ℕ} (hT : CommOK T m) (hI : NoInverse T m) (commutable : Bool)
    (hl : ∀ k, k < m → (∀ q ∈ T.used k, q < nq) ∧ (T.used k).Nodup) :
    ∃ g, construct T nq m commutable = .ok g ∧ GInv g ∧ g.n = m ∧ (∀ v, g.done v = false) ∧
      (∀ i j q, i < j → j < m → q ∈ T.used i → q ∈ T.used j →
        (commutable = true ∧ T.comm i j q = true) ∨ Reach g.en i j) ∧
      (∀ u w v q, u < w → w ≤ v → v < m → q ∈ T.used u → q ∈ T.used w → q ∈ T.used v → ¬ Free T commutable q u w →
        Reach g.en u v) ∧ (Sharp T m commutable → Justified T commutable g.en) := by
  obtain ⟨st, e, h⟩ := addOps_spec (commutable := commutable) hT hI hl m le_rfl
  have hf := flushes_spec hT (j := nq) (st := st) (commutable := commutable)
    ⟨h.graph, h.num, h.done, h.core, fun q i => by rw [h.mem]; simp, h.order, h.just, fun q hq => by omega⟩
  have mem : ∀ q i, i < m → q ∈ T.used i → i ∈ (((List.range nq).foldl (flush T commutable) st).2 q).qops := fun q i hi hqi => by
    have hq : q < nq := (hl i hi).1 q hqi
    rcases (hf.mem q i).2 ⟨hqi, hi⟩ with H | H
    · exact H
    · rw [hf.flushed q hq] at H; cases H
  refine ⟨_, by unfold construct; rw [e]; rfl, hf.graph, hf.num, hf.done, fun i j q hij hj hqi hqj => ?_,
    fun u w v q huw hwv hv hqu hqw hqv hfr => (hf.core q).up u (mem q u (by omega) hqu) w (mem q w (by omega) hqw) v
      (mem q v hv hqv) huw hwv hfr, hf.just⟩
  rcases (hf.core q).pairs i (mem q i (by omega) hqi) j (mem q j hj hqj) with (H | H) | H | H
  · omega
  · exact Or.inl H
  · exact Or.inr H
  · have := H.lt hf.graph; omega

end MQT.Layer

import Verif.DataStructures.DisjointSet

set_option autoImplicit false

/-! C01: union-find answers connectivity. -/

namespace MQT.DSU

set_option linter.unusedSectionVars false

variable {α : Type} [DecidableEq α] [Inhabited α]

/-- Specification: the equivalence generated by the `unionSet x y` calls of a history. -/
inductive Linked (h : List (Op α)) : α → α → Prop where
  | union (x y : α) : Op.union x y ∈ h → Linked h x y
  | refl (x : α) : Linked h x x
  | symm (x y : α) : Linked h x y → Linked h y x
  | trans (x y z : α) : Linked h x y → Linked h y z → Linked h x z

theorem Linked.mono {h h' : List (Op α)} (hs : ∀ o, o ∈ h → o ∈ h') {x y : α} (l : Linked h x y) :
    Linked h' x y := by
  induction l with
  | union x y m => exact .union _ _ (hs _ m)
  | refl x => exact .refl _
  | symm _ _ _ ih => exact .symm _ _ ih
  | trans _ _ _ _ _ i1 i2 => exact .trans _ _ _ i1 i2

/-- Same representative exactly when linked. -/
def Agrees (elems : List α) (s : DS α) (h : List (Op α)) : Prop :=
  ∀ a b, a ∈ elems → b ∈ elems → ∀ ra rb, Root s a ra → Root s b rb → (ra = rb ↔ Linked h a b)

theorem Linked.split {h : List (Op α)} {x y a b : α}
    (l : Linked (h ++ [Op.union x y]) a b) (R : α → α → Prop)
    (hR : ∀ a b, Linked h a b → R a b) (hxy : R x y) (hs : ∀ a b, R a b → R b a)
    (ht : ∀ a b c, R a b → R b c → R a c) : R a b := by
  induction l with
  | union u v m =>
    cases List.mem_append.mp m with
    | inl m => exact hR _ _ (.union _ _ m)
    | inr m =>
      have : Op.union u v = Op.union x y := by simpa using m
      cases this; exact hxy
  | refl x => exact hR _ _ (.refl _)
  | symm _ _ _ ih => exact hs _ _ ih
  | trans _ _ _ _ _ i1 i2 => exact ht _ _ _ i1 i2

theorem Linked.of_find {h : List (Op α)} {v a b : α} (l : Linked (h ++ [Op.find v]) a b) :
    Linked h a b := by
  induction l with
  | union u v m => exact .union _ _ (by simpa using m)
  | refl x => exact .refl _
  | symm _ _ _ ih => exact .symm _ _ ih
  | trans _ _ _ _ _ i1 i2 => exact .trans _ _ _ i1 i2

theorem Linked.range {elems : List α} {h : List (Op α)} (hr : ∀ o ∈ h, Op.inRange elems o) {a b : α}
    (l : Linked h a b) : a = b ∨ (a ∈ elems ∧ b ∈ elems) := by
  induction l with
  | union u v m => exact Or.inr (hr _ m)
  | refl x => exact Or.inl rfl
  | symm _ _ _ ih => exact ih.imp Eq.symm And.symm
  | trans _ _ _ _ _ i1 i2 =>
    rcases i1 with e | ⟨h1, h2⟩
    · subst e; exact i2
    · rcases i2 with e | ⟨h3, h4⟩
      · subst e; exact Or.inr ⟨h1, h2⟩
      · exact Or.inr ⟨h1, h4⟩

theorem step_agrees {elems : List α} {s : DS α} {h : List (Op α)} (inv : Inv elems s)
    (hr : ∀ o ∈ h, Op.inRange elems o)
    (ag : Agrees elems s h) (op : Op α) (hop : op.inRange elems) (n : Nat)
    (hn : elems.length < n) :
    ∃ s', step n s op = some s' ∧ Inv elems s' ∧ Agrees elems s' (h ++ [op]) := by
  cases op with
  | find v =>
    obtain ⟨s1, r, f, _, i1, _, m⟩ :=
      findSet_spec (elems := elems) n s v inv hop (by have := above_le elems s v; omega)
    refine ⟨s1, by simp [step, f], i1, ?_⟩
    intro a b ha hb ra rb hra hrb
    obtain ⟨ra', hra'⟩ := exists_root inv ha
    obtain ⟨rb', hrb'⟩ := exists_root inv hb
    have e1 := (m a _ ha hra').unique hra
    have e2 := (m b _ hb hrb').unique hrb
    subst e1 e2
    rw [ag a b ha hb _ _ hra' hrb']
    exact ⟨Linked.mono (fun o m => List.mem_append_left _ m), Linked.of_find⟩
  | union x y =>
    obtain ⟨hx, hy⟩ := hop
    obtain ⟨s', f, i', rx, ry, hrx, hry, a, b, hab, m⟩ := unionSet_spec inv hx hy n hn
    refine ⟨s', by simp [step, f], i', ?_⟩
    have toRoot : ∀ w t, w ∈ elems → Root s w t → Linked h w t := fun w t hw ht =>
      (ag w t hw (ht.mem inv hw) t t ht (Root.self _ ht.root)).mp rfl
    have up : ∀ u v, Linked h u v → Linked (h ++ [Op.union x y]) u v :=
      fun u v => Linked.mono (fun o m => List.mem_append_left _ m)
    have lxy : Linked (h ++ [Op.union x y]) rx ry :=
      .trans _ _ _ (.symm _ _ (up _ _ (toRoot x rx hx hrx)))
        (.trans _ _ _ (.union x y (by simp)) (up _ _ (toRoot y ry hy hry)))
    have lab : Linked (h ++ [Op.union x y]) a b := by
      rcases hab with ⟨e1, e2⟩ | ⟨e1, e2⟩
      · subst e1 e2; exact lxy
      · subst e1 e2; exact .symm _ _ lxy
    intro u v hu hv ru rv hru hrv
    obtain ⟨tu, htu⟩ := exists_root inv hu
    obtain ⟨tv, htv⟩ := exists_root inv hv
    have e1 := (m u _ hu htu).unique hru
    have e2 := (m v _ hv htv).unique hrv
    constructor
    · intro e
      have key : Linked (h ++ [Op.union x y]) tu tv := by
        have e : (if tu = a then b else tu) = (if tv = a then b else tv) := by rw [e1, e2, e]
        by_cases c1 : tu = a <;> by_cases c2 : tv = a <;> simp [c1, c2] at e
        · rw [c1, c2]; exact .refl _
        · rw [c1, ← e]; exact lab
        · rw [c2, e]; exact .symm _ _ lab
        · rw [e]; exact .refl _
      exact .trans _ _ _ (up _ _ (toRoot u tu hu htu))
        (.trans _ _ _ key (.symm _ _ (up _ _ (toRoot v tv hv htv))))
    · intro l
      have := l.split (fun p q => p = q ∨ (p ∈ elems ∧ q ∈ elems ∧
        ∀ rp rq, Root s' p rp → Root s' q rq → rp = rq)) ?_ ?_ ?_ ?_
      · rcases this with e | ⟨_, _, e⟩
        · subst e; exact hru.unique hrv
        · exact e _ _ hru hrv
      · intro p q lpq
        rcases lpq.range hr with e | ⟨hp, hq⟩
        · exact Or.inl e
        · refine Or.inr ⟨hp, hq, ?_⟩
          intro rp rq hrp hrq
          obtain ⟨tp, htp⟩ := exists_root inv hp
          obtain ⟨tq, htq⟩ := exists_root inv hq
          have e := (ag p q hp hq _ _ htp htq).mpr lpq
          rw [← (m p _ hp htp).unique hrp, ← (m q _ hq htq).unique hrq, e]
      · refine Or.inr ⟨hx, hy, ?_⟩
        intro rp rq hrp hrq
        rw [← (m x _ hx hrx).unique hrp, ← (m y _ hy hry).unique hrq]
        rcases hab with ⟨e1, e2⟩ | ⟨e1, e2⟩ <;> subst e1 e2 <;> simp

      · intro p q c
        rcases c with e | ⟨hp, hq, c⟩
        · exact Or.inl e.symm
        · exact Or.inr ⟨hq, hp, fun _ _ h1 h2 => (c _ _ h2 h1).symm⟩
      · intro p q r c1 c2
        rcases c1 with e | ⟨hp, hq, c1⟩
        · subst e; exact c2
        · rcases c2 with e | ⟨_, hr', c2⟩
          · subst e; exact Or.inr ⟨hp, hq, c1⟩
          · refine Or.inr ⟨hp, hr', fun rp rr h1 h2 => ?_⟩
            obtain ⟨tq, htq⟩ := exists_root i' hq
            exact (c1 _ _ h1 htq).trans (c2 _ _ htq h2)

theorem run_agrees {elems : List α} (n : Nat) (hn : elems.length < n) (ops : List (Op α)) :
    ∀ (s : DS α) (h : List (Op α)), Inv elems s → (∀ o ∈ h, Op.inRange elems o) →
      Agrees elems s h → (∀ o ∈ ops, Op.inRange elems o) →
      ∃ s', run n s ops = some s' ∧ Inv elems s' ∧ Agrees elems s' (h ++ ops) := by
  induction ops with
  | nil => intro s h inv _ ag _; exact ⟨s, rfl, inv, by simpa using ag⟩
  | cons op ops ih =>
    intro s h inv hr ag ho
    obtain ⟨s1, f, i1, a1⟩ := step_agrees inv hr ag op (ho op (by simp)) n hn
    obtain ⟨s2, f2, i2, a2⟩ := ih s1 (h ++ [op]) i1
      (by intro o m
          rcases List.mem_append.mp m with m | m
          · exact hr o m
          · have : o = op := by simpa using m
            subst this; exact ho o (by simp)) a1 (fun o m => ho o (by simp [m]))
    exact ⟨s2, by simp [run, f, f2], i2, by simpa using a2⟩

theorem Linked.nil {a b : α} (l : Linked ([] : List (Op α)) a b) : a = b := by
  induction l with
  | union u v m => cases m
  | refl x => rfl
  | symm _ _ _ ih => exact ih.symm
  | trans _ _ _ _ _ i1 i2 => exact i1.trans i2

/-- **C01.** For every element list and every history of `findSet`/`unionSet` calls on elements:
every call terminates (recursion depth at most the number of elements), and afterwards two
`findSet` calls give equal answers exactly when the elements are linked by the unions performed.
(Because the history may contain `findSet` calls anywhere and `Linked` ignores them, `findSet`
never changes the answer.) -/
theorem c01_unionFind_connectivity (elems : List α) (h : List (Op α))
    (hh : ∀ o ∈ h, Op.inRange elems o) (n : Nat) (hn : elems.length < n) :
    ∃ s, run n (init elems) h = some s ∧
      ∀ a b, a ∈ elems → b ∈ elems →
        ∃ s1 ra s2 rb, findSet n s a = some (s1, ra) ∧ findSet n s1 b = some (s2, rb) ∧
          (ra = rb ↔ Linked h a b) := by
  have ag0 : Agrees elems (init elems) [] := by
    intro a b ha hb ra rb hra hrb
    have h1 : Root (init elems) a a := Root.self _ (by simp [(init_spec elems a).1, ha])
    have h2 : Root (init elems) b b := Root.self _ (by simp [(init_spec elems b).1, hb])
    rw [← h1.unique hra, ← h2.unique hrb]
    exact ⟨fun e => e ▸ .refl _, Linked.nil⟩
  obtain ⟨s, f, inv, ag⟩ := run_agrees n hn h (init elems) [] (init_inv elems) (by simp) ag0 hh
  refine ⟨s, f, ?_⟩
  intro a b ha hb
  obtain ⟨s1, ra, f1, r1, i1, _, m1⟩ :=
    findSet_spec (elems := elems) n s a inv ha (by have := above_le elems s a; omega)
  obtain ⟨s2, rb, f2, r2, _, _, _⟩ :=
    findSet_spec (elems := elems) n s1 b i1 hb (by have := above_le elems s1 b; omega)
  refine ⟨s1, ra, s2, rb, f1, f2, ?_⟩
  obtain ⟨tb, htb⟩ := exists_root inv hb
  have e := (m1 b tb hb htb).unique r2
  subst e
  simpa using ag a b ha hb _ _ r1 htb

/-- A history meeting the hypotheses in which unions, repeated unions and finds occur. -/
example : ∀ o ∈ [Op.union 1 2, .find 2, .union 3 4, .union 2 1, .union 4 2], Op.inRange [1, 2, 3, 4, 5] o := by
  simp [Op.inRange]

/-- The representatives computed by the model on that history: 1,2,3,4 together, 5 alone. -/
example :
    (run 6 (init [1, 2, 3, 4, 5]) [Op.union 1 2, .find 2, .union 3 4, .union 2 1, .union 4 2]).bind
      (fun s => some ([1, 2, 3, 4, 5].map (fun v => (findSet 6 s v).map (·.2)))) =
    some [some 2, some 2, some 2, some 2, some 5] := by decide

/-- Outside the precondition (element not in the list) the code is silently wrong: `findSet 7` on a
set over `[0, 1]` answers the representative of the value-initialised element `0`
(DisjointSet.hpp:30-35, `operator[]` inserts). -/
theorem c01_unknown_element_joins_default :
    (findSet 3 (init [0, 1]) 7).map (·.2) = (findSet 3 (init [0, 1]) 0).map (·.2) := by decide

end MQT.DSU

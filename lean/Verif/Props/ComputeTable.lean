import Verif.Memory.ComputeTable
import Mathlib.Data.List.Induction

/-! C13: compute tables. -/

namespace MQT.CT

set_option linter.unusedSectionVars false
set_option autoImplicit false

variable {L R X O F P : Type}

/-- Calls that change a table. -/
inductive Ev (P X : Type) where
  | insert (p : P) (x : X)
  | clear

/-- Specification: the result last inserted for exactly the operands `p` since the last clear. -/
def last [DecidableEq P] (p : P) (tr : List (Ev P X)) : Option X :=
  tr.foldl (fun o e => match e with
    | .insert q x => if q = p then some x else o
    | .clear => none) none

/-- A history of calls of a binary table; `none` if one of them is undefined behaviour. -/
def run (c : Cfg L R X F) (tr : List (Ev (L × R) X)) : Option (T L R X) :=
  tr.foldlM (fun t e => match e with
    | .insert p x => t.insert c p.1 p.2 x
    | .clear => some (t.clear c)) (T.create c)

/-- A history of calls of a unary table. -/
def urun (c : UCfg O) (tr : List (Ev O X)) : Option (UT O X) :=
  tr.foldlM (fun t e => match e with
    | .insert p x => t.insert c p x
    | .clear => some (t.clear c)) (UT.create c)

theorem run_snoc (c : Cfg L R X F) (tr : List (Ev (L × R) X)) (e : Ev (L × R) X) :
    run c (tr ++ [e]) = (run c tr).bind fun t => match e with
      | .insert p x => t.insert c p.1 p.2 x
      | .clear => some (t.clear c) := by
  unfold run
  rw [List.foldlM_append]
  simp only [List.foldlM_cons, List.foldlM_nil]
  cases e <;> simp

theorem urun_snoc (c : UCfg O) (tr : List (Ev O X)) (e : Ev O X) :
    urun c (tr ++ [e]) = (urun c tr).bind fun t => match e with
      | .insert p x => t.insert c p x
      | .clear => some (t.clear c) := by
  unfold urun
  rw [List.foldlM_append]
  simp only [List.foldlM_cons, List.foldlM_nil]
  cases e <;> simp

theorem last_snoc [DecidableEq P] (p : P) (tr : List (Ev P X)) (e : Ev P X) :
    last p (tr ++ [e]) = match e with
      | .insert q x => if q = p then some x else last p tr
      | .clear => none := by
  unfold last; rw [List.foldl_append]; rfl

/-- Slot `k` holds the last insertion with this key since the last clear. -/
def slot (key : P → Nat) (k : Nat) (tr : List (Ev P X)) : Option (P × X) :=
  tr.foldl (fun o e => match e with
    | .insert q x => if key q = k then some (q, x) else o
    | .clear => none) none

theorem slot_snoc (key : P → Nat) (k : Nat) (tr : List (Ev P X)) (e : Ev P X) :
    slot key k (tr ++ [e]) = match e with
      | .insert q x => if key q = k then some (q, x) else slot key k tr
      | .clear => none := by
  unfold slot; rw [List.foldl_append]; rfl

/-- An entry in its slot is the last one for its operands. -/
theorem slot_last [DecidableEq P] (key : P → Nat) (tr : List (Ev P X)) {p : P} {x : X}
    (h : slot key (key p) tr = some (p, x)) : last p tr = some x := by
  induction tr using List.reverseRecOn with
  | nil => simp [slot] at h
  | append_singleton tr e ih =>
    rw [slot_snoc] at h
    rw [last_snoc]
    cases e with
    | clear => simp at h
    | insert q y =>
      simp only at h ⊢
      by_cases hk : key q = key p
      · rw [if_pos hk] at h
        simp only [Option.some.injEq, Prod.mk.injEq] at h
        obtain ⟨rfl, rfl⟩ := h
        simp
      · rw [if_neg hk] at h
        have : q ≠ p := by rintro rfl; exact hk rfl
        rw [if_neg this]; exact ih h

/-- Specification: a call that leaves slot `k` alone. -/
def Keeps (key : P → Nat) (k : Nat) : Ev P X → Prop
  | .insert q _ => key q ≠ k
  | .clear => False

theorem slot_split (key : P → Nat) (k : Nat) (tr : List (Ev P X)) {p : P} {x : X} :
    slot key k tr = some (p, x) ↔ key p = k ∧ ∃ t1 t2, tr = t1 ++ Ev.insert p x :: t2 ∧
      ∀ e ∈ t2, Keeps key k e := by
  induction tr using List.reverseRecOn with
  | nil => simp [slot]
  | append_singleton tr e ih =>
    rw [slot_snoc]
    cases e with
    | clear =>
      simp only [reduceCtorEq, false_iff]
      rintro ⟨hk, t1, t2, he, h2⟩
      rcases List.eq_nil_or_concat t2 with rfl | ⟨t2, f, rfl⟩
      · have := List.append_inj_right' he rfl
        simp at this
      · rw [List.concat_eq_append, ← List.cons_append, ← List.append_assoc] at he
        have := List.append_inj_right' he rfl
        simp only [List.cons.injEq, and_true] at this
        subst this
        exact h2 .clear (by simp)
    | insert q y =>
      simp only
      by_cases hk : key q = k
      · rw [if_pos hk]
        simp only [Option.some.injEq, Prod.mk.injEq]
        constructor
        · rintro ⟨rfl, rfl⟩; exact ⟨hk, tr, [], rfl, by simp⟩
        · rintro ⟨hkp, t1, t2, he, h2⟩
          rcases List.eq_nil_or_concat t2 with rfl | ⟨t2, f, rfl⟩
          · have := List.append_inj_right' he rfl
            simpa using this
          · rw [List.concat_eq_append, ← List.cons_append, ← List.append_assoc] at he
            have := List.append_inj_right' he rfl
            simp only [List.cons.injEq, and_true] at this
            subst this
            exact absurd hk (h2 (.insert q y) (by simp))
      · rw [if_neg hk, ih]
        constructor
        · rintro ⟨hkp, t1, t2, rfl, h2⟩
          refine ⟨hkp, t1, t2 ++ [.insert q y], by simp, ?_⟩
          intro e he
          rcases List.mem_append.mp he with he | he
          · exact h2 e he
          · rw [List.mem_singleton] at he; subst he; exact hk
        · rintro ⟨hkp, t1, t2, he, h2⟩
          rcases List.eq_nil_or_concat t2 with rfl | ⟨t2, f, rfl⟩
          · have := List.append_inj_right' he rfl
            simp only [List.cons.injEq, Ev.insert.injEq, and_true] at this
            obtain ⟨rfl, rfl⟩ := this
            exact absurd hkp hk
          · rw [List.concat_eq_append, ← List.cons_append, ← List.append_assoc] at he
            exact ⟨hkp, t1, t2, List.append_inj_left' he rfl, fun e he => h2 e (by simp [he])⟩

structure Inv (c : Cfg L R X F) (tr : List (Ev (L × R) X)) (t : T L R X) : Prop where
  size : t.size = c.numBuckets
  ent : ∀ k, (if t.valid k then t.table k else none) =
    (slot (fun p => c.key p.1 p.2) k tr).map fun e => (e.1.1, e.1.2, e.2)

theorem run_inv (c : Cfg L R X F) (hb : 0 < c.numBuckets) (tr : List (Ev (L × R) X)) :
    ∃ t, run c tr = some t ∧ Inv c tr t := by
  induction tr using List.reverseRecOn with
  | nil => exact ⟨_, rfl, rfl, fun k => by simp [T.create, slot]⟩
  | append_singleton tr e ih =>
    obtain ⟨t, ht, i⟩ := ih
    rw [run_snoc, ht, Option.bind_some]
    cases e with
    | clear =>
      exact ⟨_, rfl, rfl, fun k => by simp [T.clear, slot_snoc]⟩
    | insert p x =>
      have hk : c.key p.1 p.2 < c.numBuckets := and_lt hb _
      simp only [T.insert, i.size, hk, and_self, if_true]
      refine ⟨_, rfl, rfl, fun k => ?_⟩
      rw [slot_snoc]
      simp only
      by_cases e : k = c.key p.1 p.2
      · subst e; simp
      · rw [if_neg e, if_neg e, if_neg (Ne.symm e)]; exact i.ent k

theorem lookup_iff {c : Cfg L R X F} (hb : 0 < c.numBuckets) {tr : List (Ev (L × R) X)} {t : T L R X}
    (i : Inv c tr t) (l : L) (r : R) (f : F) (o : Option X) : t.lookup c l r f = some o ↔
      o = (slot (fun p => c.key p.1 p.2) (c.key l r) tr).bind fun e =>
        if c.eqL e.1.1 l ∧ c.eqR e.1.2 r ∧ c.ok e.2 f then some e.2 else none := by
  have hk : c.key l r < c.numBuckets := and_lt hb _
  have he := i.ent (c.key l r)
  unfold T.lookup
  simp only [i.size, hk, and_self, if_true]
  cases hv : t.valid (c.key l r) with
  | false =>
    rw [hv] at he
    simp only [Bool.false_eq_true, if_false] at he
    rw [eq_comm, Option.map_eq_none_iff] at he
    rw [he]; simp only [Bool.not_false, if_true, Option.bind_none, Option.some.injEq]; exact eq_comm
  | true =>
    rw [hv] at he
    simp only [if_true] at he
    cases hs : slot (fun p => c.key p.1 p.2) (c.key l r) tr with
    | none => rw [hs] at he; simp only [Option.map_none] at he; rw [he]; simp only [Bool.not_true, Bool.false_eq_true, if_false, Option.bind_none, Option.some.injEq]; exact eq_comm
    | some e =>
      rw [hs] at he; simp only [Option.map_some] at he
      rw [he]
      simp only [Bool.not_true, Bool.false_eq_true, if_false, Option.bind_some]
      cases c.eqL e.1.1 l <;> cases c.eqR e.1.2 r <;> cases c.ok e.2 f <;> simp <;> exact eq_comm

/-- **C13**, tables whose operands are compared exactly (node pointers): every history of calls is free
of undefined behaviour, and a lookup answers only with the result last inserted for exactly these
operands since the last clear. The full claim fails for tables keyed by `CachedEdge`s, see
`c13_tolerance_hit`; for those `c13_computeTable_tolerance` is what holds. -/
theorem c13_computeTable_exact_partial [DecidableEq L] [DecidableEq R] (c : Cfg L R X F)
    (hb : 0 < c.numBuckets) (hL : ∀ a b, c.eqL a b = decide (a = b)) (hR : ∀ a b, c.eqR a b = decide (a = b))
    (tr : List (Ev (L × R) X)) :
    ∃ t, run c tr = some t ∧ ∀ l r f, ∃ o, t.lookup c l r f = some o ∧
      ∀ x, o = some x → last (l, r) tr = some x := by
  obtain ⟨t, ht, i⟩ := run_inv c hb tr
  refine ⟨t, ht, fun l r f => ⟨_, (lookup_iff hb i l r f _).mpr rfl, ?_⟩⟩
  intro x hx
  cases hs : slot (fun p => c.key p.1 p.2) (c.key l r) tr with
  | none => rw [hs] at hx; simp at hx
  | some e =>
    rw [hs] at hx
    simp only [Option.bind_some, hL, hR, decide_eq_true_eq] at hx
    split at hx
    · rename_i h
      simp only [Option.some.injEq] at hx
      obtain ⟨⟨a, b⟩, y⟩ := e
      obtain ⟨rfl, rfl, _⟩ := h
      simp only at hx; subst hx
      exact slot_last (fun p : L × R => c.key p.1 p.2) tr hs
    · simp at hx

/-- Any comparison of operands: an answer `x` was inserted for operands that compare equal to the given
ones and have the same key, with no clear and no insertion with this key afterwards; conversely such an
insertion (with the expected density flag) is answered. -/
theorem c13_computeTable_tolerance (c : Cfg L R X F) (hb : 0 < c.numBuckets)
    (tr : List (Ev (L × R) X)) :
    ∃ t, run c tr = some t ∧ ∀ l r f x, t.lookup c l r f = some (some x) ↔
      ∃ l' r', c.eqL l' l ∧ c.eqR r' r ∧ c.ok x f ∧ c.key l' r' = c.key l r ∧
        ∃ t1 t2, tr = t1 ++ Ev.insert (l', r') x :: t2 ∧
          ∀ e ∈ t2, Keeps (fun q : L × R => c.key q.1 q.2) (c.key l r) e := by
  obtain ⟨t, ht, i⟩ := run_inv c hb tr
  refine ⟨t, ht, fun l r f x => ?_⟩
  rw [lookup_iff hb i]
  constructor
  · intro h
    cases hs : slot (fun p => c.key p.1 p.2) (c.key l r) tr with
    | none => rw [hs] at h; simp at h
    | some e =>
      rw [hs] at h
      simp only [Option.bind_some] at h
      split at h
      · rename_i hc
        simp only [Option.some.injEq] at h
        obtain ⟨⟨a, b⟩, y⟩ := e
        simp only at h; subst h
        have := (slot_split (fun p : L × R => c.key p.1 p.2) (c.key l r) tr).mp hs
        exact ⟨a, b, hc.1, hc.2.1, hc.2.2, this.1, this.2⟩
      · simp at h
  · rintro ⟨a, b, h1, h2, h3, h4, h5⟩
    have hs := (slot_split (fun p : L × R => c.key p.1 p.2) (c.key l r) tr).mpr ⟨h4, h5⟩
    rw [hs]
    simp [h1, h2, h3]

/-- Tables keyed by `CachedEdge`s (`vectorAdd`, `matrixAdd`, ...) may answer with the result for a
different operand within the tolerance (weights as multiples of the tolerance over 2). -/
theorem c13_tolerance_hit :
    let c : Cfg Int Int Int Unit := ⟨16, fun _ _ => 0, fun a b => decide ((a - b).natAbs ≤ 2),
      fun a b => decide ((a - b).natAbs ≤ 2), fun _ _ => true⟩
    ∃ t, run c [.insert (4, 4) 8] = some t ∧ t.lookup c 5 4 () = some (some 8) ∧
      last ((5, 4) : Int × Int) [Ev.insert (4, 4) (8 : Int)] = none :=
  ⟨_, rfl, by decide, by decide⟩

theorem laws_binary [DecidableEq L] [DecidableEq R] (c : Cfg L R X F)
    (hb : 0 < c.numBuckets) (hL : ∀ a b, c.eqL a b = decide (a = b)) (hR : ∀ a b, c.eqR a b = decide (a = b))
    (f : F) : Laws (P := L × R) (fun (t : T L R X) p => t.lookup c p.1 p.2 f)
      (fun t p x => t.insert c p.1 p.2 x) (fun t => t.size = c.numBuckets) := by
  refine ⟨?_, ?_, ?_⟩
  · intro t p hw
    have hk : c.key p.1 p.2 < c.numBuckets := and_lt hb _
    unfold T.lookup
    simp only [hw, hk, and_self, if_true]
    split
    · exact ⟨_, rfl⟩
    · split
      · exact ⟨_, rfl⟩
      · split
        · exact ⟨_, rfl⟩
        · split
          · exact ⟨_, rfl⟩
          · split <;> exact ⟨_, rfl⟩
  · intro t p x hw
    have hk : c.key p.1 p.2 < c.numBuckets := and_lt hb _
    simp only [T.insert, hw, hk, and_self, if_true]
    exact ⟨_, rfl, rfl⟩
  · intro t p x t' hw he q y hq
    have hk : c.key p.1 p.2 < c.numBuckets := and_lt hb _
    have hk' : c.key q.1 q.2 < c.numBuckets := and_lt hb _
    simp only [T.insert, hw, hk, and_self, if_true, Option.some.injEq] at he
    subst he
    unfold T.lookup at hq ⊢
    simp only [hw, hk', and_self, if_true] at hq ⊢
    by_cases e : c.key q.1 q.2 = c.key p.1 p.2
    · left
      simp only [e, if_true, Bool.not_true, Bool.false_eq_true, if_false, hL, hR] at hq
      by_cases h1 : p.1 = q.1 <;> by_cases h2 : p.2 = q.2 <;> simp [h1, h2] at hq
      cases hok : c.ok x f
      · simp [hok] at hq
      · simp [hok] at hq; exact ⟨Prod.ext h1.symm h2.symm, hq.symm⟩
    · right
      simpa only [e, if_false] using hq

/-- **C13**, memoisation: a recursive function evaluated through a (binary) table with exactly compared
operands, started on the empty table, returns exactly the value of the plain recursion: every memoised
result is a plain result, and the memoised function terminates whenever the plain one does. Two
terminating plain evaluations agree (`evalF_unique`). -/
theorem c13_memo_transparent [DecidableEq L] [DecidableEq R] (c : Cfg L R X F)
    (hb : 0 < c.numBuckets) (hL : ∀ a b, c.eqL a b = decide (a = b)) (hR : ∀ a b, c.eqR a b = decide (a = b))
    (f : F) (body : L × R → Comp (L × R) X) (p : L × R) (x : X) :
    let memo := memoF (fun (t : T L R X) p => t.lookup c p.1 p.2 f) (fun t p x => t.insert c p.1 p.2 x) body
    (∀ n t', memo n p (T.create c) = some (x, t') → ∃ m, evalF body m p = some x) ∧
    (∀ n, evalF body n p = some x → ∃ t', memo n p (T.create c) = some (x, t')) := by
  intro memo
  have l := laws_binary (X := X) c hb hL hR f
  have hs : Sound (fun (t : T L R X) (p : L × R) => t.lookup c p.1 p.2 f)
      (fun t => t.size = c.numBuckets) body (T.create c) := by
    refine ⟨rfl, ?_⟩
    intro q y hq
    have hk : c.key q.1 q.2 < c.numBuckets := and_lt hb _
    simp [T.lookup, T.create, hk] at hq
  exact ⟨fun n t' h => (memoF_sound l body n p _ x t' hs h).1, fun n h => memoF_total l body n p _ x hs h⟩

/-! ### Unary tables -/

structure UInv (c : UCfg O) (tr : List (Ev O X)) (t : UT O X) : Prop where
  size : c.numBuckets ≤ t.size
  ent : ∀ k, (if t.valid k then t.table k else none) = slot c.key k tr

theorem urun_inv (c : UCfg O) (hb : 0 < c.numBuckets) (hn : c.numBuckets ≤ c.nbucket)
    (tr : List (Ev O X)) : ∃ t, urun c tr = some t ∧ UInv c tr t := by
  induction tr using List.reverseRecOn with
  | nil => exact ⟨_, rfl, le_rfl, fun k => by simp [UT.create, slot]⟩
  | append_singleton tr e ih =>
    obtain ⟨t, ht, i⟩ := ih
    rw [urun_snoc, ht, Option.bind_some]
    cases e with
    | clear => exact ⟨_, rfl, hn, fun k => by simp [UT.clear, slot_snoc]⟩
    | insert p x =>
      have hk : c.key p < c.numBuckets := and_lt hb _
      have hk2 : c.key p < t.size := lt_of_lt_of_le hk i.size
      simp only [UT.insert, hk, hk2, and_self, if_true]
      refine ⟨_, rfl, i.size, fun k => ?_⟩
      rw [slot_snoc]
      simp only
      by_cases e : k = c.key p
      · subst e; simp
      · rw [if_neg e, if_neg e, if_neg (Ne.symm e)]; exact i.ent k

/-- **C13**, unary tables (exact comparison), if the number of buckets does not exceed the template
argument `NBUCKET`. -/
theorem c13_unaryTable_partial [DecidableEq O] (c : UCfg O) (hb : 0 < c.numBuckets)
    (hn : c.numBuckets ≤ c.nbucket) (hO : ∀ a b, c.eqO a b = decide (a = b)) (tr : List (Ev O X)) :
    ∃ t, urun c tr = some t ∧ ∀ o, ∃ a, t.lookup c o = some a ∧ ∀ x, a = some x → last o tr = some x := by
  obtain ⟨t, ht, i⟩ := urun_inv c hb hn tr
  refine ⟨t, ht, fun o => ?_⟩
  have hk : c.key o < c.numBuckets := and_lt hb _
  have hk2 : c.key o < t.size := lt_of_lt_of_le hk i.size
  have he := i.ent (c.key o)
  unfold UT.lookup
  simp only [hk, hk2, and_self, if_true]
  cases hv : t.valid (c.key o) with
  | false => exact ⟨none, by simp, by simp⟩
  | true =>
    rw [hv] at he; simp only [if_true] at he
    rw [he]
    cases hs : slot c.key (c.key o) tr with
    | none => exact ⟨none, by simp, by simp⟩
    | some e =>
      obtain ⟨p, y⟩ := e
      by_cases h : p = o
      · subst h
        refine ⟨some y, by simp [hO], ?_⟩
        intro x hx
        rw [← hx]; exact slot_last c.key tr hs
      · exact ⟨none, by simp [hO, h], by simp⟩

/-- With more buckets than `NBUCKET` a call after `clear` is out of range
(UnaryComputeTable.hpp:109 should use the number of buckets). -/
theorem c13_unary_clear_out_of_range :
    let c : UCfg Nat := ⟨2, 4, id, fun a b => decide (a = b)⟩
    ∃ t : UT Nat Nat, urun c [.clear] = some t ∧ t.lookup c 3 = none :=
  ⟨_, rfl, by decide⟩

/-! ### Concrete cases -/

/-- Colliding operands evict each other; operand (1,1) is answered, (5,1) is not. -/
example :
    let c : Cfg Nat Nat Nat Unit := ⟨4, fun a b => a + b, fun a b => decide (a = b),
      fun a b => decide (a = b), fun _ _ => true⟩
    ∃ t, run c [.insert (5, 1) 7, .insert (1, 1) 2] = some t ∧ t.lookup c 1 1 () = some (some 2) ∧
      t.lookup c 5 1 () = some none :=
  ⟨_, rfl, by decide, by decide⟩

/-- Fibonacci through a table of 4 buckets. -/
example :
    let c : Cfg Nat Unit Nat Unit := ⟨4, fun a _ => a, fun a b => decide (a = b), fun _ _ => true, fun _ _ => true⟩
    let body : Nat × Unit → Comp (Nat × Unit) Nat := fun p => match p.1 with
      | 0 => .ret 0
      | 1 => .ret 1
      | n + 2 => .call (n, ()) fun a => .call (n + 1, ()) fun b => .ret (a + b)
    (memoF (fun (t : T Nat Unit Nat) p => t.lookup c p.1 p.2 ()) (fun t p x => t.insert c p.1 p.2 x) body 9
      (8, ()) (T.create c)).map Prod.fst = some 21 := by decide

end MQT.CT

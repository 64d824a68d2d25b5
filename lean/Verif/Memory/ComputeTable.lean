import Mathlib.Data.Nat.Bitwise
import Mathlib.Data.List.Basic

set_option autoImplicit false

/-
Model of the compute tables:
 * `ComputeTable` (include/mqt-core/dd/ComputeTable.hpp:36-175),
 * `DensityNoiseTable` (include/mqt-core/dd/DensityNoiseTable.hpp:24-110), which has the shape of
   `ComputeTable` with the used qubits as right operand,
 * `UnaryComputeTable` (include/mqt-core/dd/UnaryComputeTable.hpp:30-118).

The comparison of operands is a parameter: operands that are node pointers are compared exactly,
operands that are `CachedEdge`s are compared up to a tolerance (CachedEdge.hpp:60-63).
Hash functions are arbitrary. Reading or writing `valid`/`table` out of range is `none`.
Not modelled: statistics.
-/
namespace MQT.CT

set_option linter.unusedSectionVars false

variable {L R X O F : Type}

/-- Parameters: size, hash, operand comparison, and the density-matrix check of ComputeTable.hpp:140-150
(`ok result useDensityMatrix`; constantly true for all other tables). -/
structure Cfg (L R X F : Type) where
  numBuckets : Nat
  hash : L → R → Nat
  eqL : L → L → Bool
  eqR : R → R → Bool
  ok : X → F → Bool

/-- ComputeTable.hpp:58-63, 168-174: entries and valid bits; `size` is `valid.size()`. -/
structure T (L R X : Type) where
  size : Nat
  valid : Nat → Bool
  table : Nat → Option (L × R × X)

/-- ComputeTable.hpp:71-90: `hash & (numBuckets - 1)`. -/
def Cfg.key (c : Cfg L R X F) (l : L) (r : R) : Nat := c.hash l r &&& (c.numBuckets - 1)

/-- ComputeTable.hpp:43-52. -/
def T.create (c : Cfg L R X F) : T L R X := ⟨c.numBuckets, fun _ => false, fun _ => none⟩

/-- ComputeTable.hpp:105-115: `insert`. -/
def T.insert (c : Cfg L R X F) (t : T L R X) (l : L) (r : R) (x : X) : Option (T L R X) :=
  let k := c.key l r
  if k < t.size ∧ k < c.numBuckets then
    some { t with valid := fun i => if i = k then true else t.valid i
                  table := fun i => if i = k then some (l, r, x) else t.table i }
  else none

/-- ComputeTable.hpp:124-155: `lookup`; the outer `none` is undefined behaviour. -/
def T.lookup (c : Cfg L R X F) (t : T L R X) (l : L) (r : R) (f : F) : Option (Option X) :=
  let k := c.key l r
  if k < t.size ∧ k < c.numBuckets then
    if !t.valid k then some none
    else match t.table k with
      | none => some none
      | some (l', r', x) =>
        if !c.eqL l' l then some none
        else if !c.eqR r' r then some none
        else if !c.ok x f then some none
        else some (some x)
  else none

/-- ComputeTable.hpp:161: `clear`. -/
def T.clear (c : Cfg L R X F) (t : T L R X) : T L R X :=
  { t with size := c.numBuckets, valid := fun _ => false }

/-! ### Unary tables -/

/-- Parameters of a unary table; `nbucket` is the template argument `NBUCKET` (default 32768),
`numBuckets` the constructor argument. -/
structure UCfg (O : Type) where
  nbucket : Nat
  numBuckets : Nat
  hash : O → Nat
  eqO : O → O → Bool

structure UT (O X : Type) where
  size : Nat
  valid : Nat → Bool
  table : Nat → Option (O × X)

/-- UnaryComputeTable.hpp:60-63. -/
def UCfg.key (c : UCfg O) (o : O) : Nat := c.hash o &&& (c.numBuckets - 1)

/-- UnaryComputeTable.hpp:35-45. -/
def UT.create (c : UCfg O) : UT O X := ⟨c.numBuckets, fun _ => false, fun _ => none⟩

/-- UnaryComputeTable.hpp:71-80. -/
def UT.insert (c : UCfg O) (t : UT O X) (o : O) (x : X) : Option (UT O X) :=
  let k := c.key o
  if k < t.size ∧ k < c.numBuckets then
    some { t with valid := fun i => if i = k then true else t.valid i
                  table := fun i => if i = k then some (o, x) else t.table i }
  else none

/-- UnaryComputeTable.hpp:87-103. -/
def UT.lookup (c : UCfg O) (t : UT O X) (o : O) : Option (Option X) :=
  let k := c.key o
  if k < t.size ∧ k < c.numBuckets then
    if !t.valid k then some none
    else match t.table k with
      | none => some none
      | some (o', x) => if !c.eqO o' o then some none else some (some x)
  else none

/-- UnaryComputeTable.hpp:109: `clear` sizes the valid bits by the template argument. -/
def UT.clear (c : UCfg O) (t : UT O X) : UT O X :=
  { t with size := c.nbucket, valid := fun _ => false }

/-! ### Memoised recursion -/

/-- One level of a recursive function as a program: return a result or call the function on an
operand and continue. -/
inductive Comp (P X : Type) where
  | ret (x : X)
  | call (p : P) (k : X → Comp P X)

/-- Evaluate the program, calls answered by `g`. -/
def Comp.run {P X : Type} (g : P → Option X) : Comp P X → Option X
  | .ret x => some x
  | .call p k => (g p).bind fun x => (k x).run g

/-- Plain recursion (with fuel). -/
def evalF {P X : Type} (body : P → Comp P X) : Nat → P → Option X
  | 0, _ => none
  | n + 1, p => (body p).run (evalF body n)

/-- The same with a state. -/
def Comp.runS {P X S : Type} (g : P → S → Option (X × S)) : Comp P X → S → Option (X × S)
  | .ret x, s => some (x, s)
  | .call p k, s => (g p s).bind fun r => (k r.1).runS g r.2

/-- Memoised recursion as in `add2`, `multiply2`, `conjugateRec`, ... (e.g. Package.cpp:843-865): look
the operand up, otherwise compute (with recursive calls through the same table) and insert. -/
def memoF {P X S : Type} (lookup : S → P → Option (Option X)) (insert : S → P → X → Option S)
    (body : P → Comp P X) : Nat → P → S → Option (X × S)
  | 0, _, _ => none
  | n + 1, p, s =>
    match lookup s p with
    | none => none
    | some (some x) => some (x, s)
    | some none => ((body p).runS (memoF lookup insert body n) s).bind fun r =>
        (insert r.2 p r.1).bind fun s => some (r.1, s)

/-! ### Lemmas on memoised recursion -/

section Memo
variable {P S : Type}

theorem Comp.run_mono {g h : P → Option X} (hgh : ∀ p x, g p = some x → h p = some x) :
    ∀ (c : Comp P X) (x : X), c.run g = some x → c.run h = some x
  | .ret _, _, e => e
  | .call p k, x, e => by
    simp only [Comp.run] at e ⊢
    cases hg : g p with
    | none => rw [hg] at e; simp at e
    | some y =>
      rw [hg] at e
      rw [hgh p y hg]
      exact Comp.run_mono hgh (k y) x e

theorem evalF_mono (body : P → Comp P X) : ∀ (n : Nat) (p : P) (x : X), evalF body n p = some x →
    evalF body (n + 1) p = some x := by
  intro n
  induction n with
  | zero => intro p x h; simp [evalF] at h
  | succ n ih => intro p x h; exact Comp.run_mono ih _ x h

theorem evalF_le (body : P → Comp P X) {n m : Nat} (h : n ≤ m) {p : P} {x : X}
    (e : evalF body n p = some x) : evalF body m p = some x := by
  induction h with
  | refl => exact e
  | step _ ih => exact evalF_mono body _ _ _ ih

/-- Two terminating evaluations agree. -/
theorem evalF_unique (body : P → Comp P X) {n m : Nat} {p : P} {x y : X}
    (h1 : evalF body n p = some x) (h2 : evalF body m p = some y) : x = y := by
  have a := evalF_le body (Nat.le_max_left n m) h1
  have b := evalF_le body (Nat.le_max_right n m) h2
  rw [a] at b; exact Option.some.inj b

/-- Programs whose calls terminate terminate with a common fuel. -/
theorem Comp.run_exists (body : P → Comp P X) {Ev : P → X → Prop}
    (hev : ∀ p x, Ev p x → ∃ n, evalF body n p = some x) {g : P → S → Option (X × S)} {I : S → Prop}
    (hg : ∀ p s x s', I s → g p s = some (x, s') → Ev p x ∧ I s') :
    ∀ (c : Comp P X) (s : S) (x : X) (s' : S), I s → c.runS g s = some (x, s') →
      (∃ n, c.run (evalF body n) = some x) ∧ I s'
  | .ret y, s, x, s', hi, e => by
    simp only [Comp.runS, Option.some.injEq, Prod.mk.injEq] at e
    obtain ⟨rfl, rfl⟩ := e
    exact ⟨⟨0, rfl⟩, hi⟩
  | .call p k, s, x, s', hi, e => by
    simp only [Comp.runS] at e
    cases hgp : g p s with
    | none => rw [hgp] at e; simp at e
    | some r =>
      rw [hgp] at e
      obtain ⟨h1, h2⟩ := hg p s r.1 r.2 hi hgp
      obtain ⟨⟨n, hn⟩, h4⟩ := Comp.run_exists body hev hg (k r.1) r.2 x s' h2 e
      obtain ⟨m, hm⟩ := hev p r.1 h1
      refine ⟨⟨max n m, ?_⟩, h4⟩
      simp only [Comp.run]
      rw [evalF_le body (Nat.le_max_right n m) hm]
      exact Comp.run_mono (fun q y hq => evalF_le body (Nat.le_max_left n m) hq) _ _ hn

/-- What is needed of a table. -/
structure Laws (lookup : S → P → Option (Option X)) (insert : S → P → X → Option S) (Wf : S → Prop) :
    Prop where
  total : ∀ s p, Wf s → ∃ o, lookup s p = some o
  ins : ∀ s p x, Wf s → ∃ s', insert s p x = some s' ∧ Wf s'
  only : ∀ s p x s', Wf s → insert s p x = some s' → ∀ q y, lookup s' q = some (some y) →
    (q = p ∧ y = x) ∨ lookup s q = some (some y)

/-- The table holds only correct results. -/
def Sound (lookup : S → P → Option (Option X)) (Wf : S → Prop) (body : P → Comp P X) (s : S) : Prop :=
  Wf s ∧ ∀ p x, lookup s p = some (some x) → ∃ n, evalF body n p = some x

theorem memoF_sound {lookup : S → P → Option (Option X)} {insert : S → P → X → Option S}
    {Wf : S → Prop} (l : Laws lookup insert Wf) (body : P → Comp P X) :
    ∀ (n : Nat) (p : P) (s : S) (x : X) (s' : S), Sound lookup Wf body s →
      memoF lookup insert body n p s = some (x, s') →
      (∃ n, evalF body n p = some x) ∧ Sound lookup Wf body s' := by
  intro n
  induction n with
  | zero => intro p s x s' _ e; simp [memoF] at e
  | succ n ih =>
    intro p s x s' hs e
    simp only [memoF] at e
    obtain ⟨o, ho⟩ := l.total s p hs.1
    rw [ho] at e
    cases o with
    | some y =>
      simp only [Option.some.injEq, Prod.mk.injEq] at e
      obtain ⟨rfl, rfl⟩ := e
      exact ⟨hs.2 p y ho, hs⟩
    | none =>
      simp only at e
      cases hr : (body p).runS (memoF lookup insert body n) s with
      | none => rw [hr] at e; simp at e
      | some r =>
        rw [hr] at e
        simp only [Option.bind_some] at e
        obtain ⟨⟨m, hm⟩, hsr⟩ := Comp.run_exists body
          (Ev := fun p x => ∃ n, evalF body n p = some x) (fun _ _ h => h)
          (I := Sound lookup Wf body) (fun p s x s' hi hg => ih p s x s' hi hg) (body p) s r.1 r.2 hs hr
        obtain ⟨s2, h2, hw2⟩ := l.ins r.2 p r.1 hsr.1
        rw [h2] at e
        simp only [Option.bind_some, Option.some.injEq, Prod.mk.injEq] at e
        obtain ⟨rfl, rfl⟩ := e
        refine ⟨⟨m + 1, hm⟩, hw2, ?_⟩
        intro q y hq
        rcases l.only r.2 p r.1 s2 hsr.1 h2 q y hq with ⟨rfl, rfl⟩ | hq
        · exact ⟨m + 1, hm⟩
        · exact hsr.2 q y hq

theorem runS_total {lookup : S → P → Option (Option X)} {insert : S → P → X → Option S}
    {Wf : S → Prop} (l : Laws lookup insert Wf) (body : P → Comp P X) (n : Nat)
    (ih : ∀ (p : P) (s : S) (x : X), Sound lookup Wf body s → evalF body n p = some x →
      ∃ s', memoF lookup insert body n p s = some (x, s')) :
    ∀ (c : Comp P X) (s : S) (x : X), Sound lookup Wf body s → c.run (evalF body n) = some x →
      ∃ s', c.runS (memoF lookup insert body n) s = some (x, s') ∧ Sound lookup Wf body s'
  | .ret y, s, x, hs, e => by
    simp only [Comp.run, Option.some.injEq] at e
    subst e
    exact ⟨s, rfl, hs⟩
  | .call p k, s, x, hs, e => by
    simp only [Comp.run] at e
    cases hp : evalF body n p with
    | none => rw [hp] at e; simp at e
    | some y =>
      rw [hp] at e
      obtain ⟨s1, h1⟩ := ih p s y hs hp
      obtain ⟨s2, h2, h3⟩ := runS_total l body n ih (k y) s1 x (memoF_sound l body n p s y s1 hs h1).2 e
      refine ⟨s2, ?_, h3⟩
      simp only [Comp.runS, h1]
      exact h2

theorem memoF_total {lookup : S → P → Option (Option X)} {insert : S → P → X → Option S}
    {Wf : S → Prop} (l : Laws lookup insert Wf) (body : P → Comp P X) :
    ∀ (n : Nat) (p : P) (s : S) (x : X), Sound lookup Wf body s → evalF body n p = some x →
      ∃ s', memoF lookup insert body n p s = some (x, s') := by
  intro n
  induction n with
  | zero => intro p s x _ e; simp [evalF] at e
  | succ n ih =>
    intro p s x hs e
    simp only [memoF]
    obtain ⟨o, ho⟩ := l.total s p hs.1
    rw [ho]
    cases o with
    | some y =>
      obtain ⟨m, hm⟩ := hs.2 p y ho
      exact ⟨s, by rw [evalF_unique body hm e]⟩
    | none =>
      obtain ⟨s1, h1, h2⟩ := runS_total l body n ih (body p) s x hs e
      obtain ⟨s2, h3, _⟩ := l.ins s1 p x h2.1
      refine ⟨s2, ?_⟩
      simp only [h1, Option.bind_some, h3]

end Memo

theorem and_lt {n : Nat} (h : 0 < n) (x : Nat) : x &&& (n - 1) < n := by
  have : x &&& (n - 1) ≤ n - 1 := Nat.and_le_right
  omega

end MQT.CT

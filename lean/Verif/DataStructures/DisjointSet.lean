/-
Model of `qc::DisjointSet` (include/mqt-core/datastructures/DisjointSet.hpp:18-49).

Simplifications: `std::unordered_map` is a function to `Option`; `std::size_t` ranks are naturals
(no overflow: the rank is at most the number of unions). The recursion of `findSet` carries a fuel
argument; running out of fuel is the outcome `none`, so `some` results certify termination.
-/

set_option autoImplicit false
namespace MQT.DSU

set_option linter.unusedSectionVars false

/-- DisjointSet.hpp:19-20: the two maps `parent` and `rank` (absent rank entries read as 0, exactly
as `operator[]` value-initialises them). -/
structure DS (α : Type) where
  parent : α → Option α
  rank : α → Nat

variable {α : Type} [DecidableEq α] [Inhabited α]

/-- Update of one key of a map. -/
def upd {β : Type} (f : α → β) (k : α) (v : β) : α → β := fun x => if x = k then v else f x

/-- DisjointSet.hpp:22-28: constructor from a range of elements. -/
def init (elems : List α) : DS α :=
  elems.foldl (fun s e => { parent := upd s.parent e (some e), rank := upd s.rank e 0 })
    { parent := fun _ => none, rank := fun _ => 0 }

/-- `parent[v]` of `std::unordered_map`: inserts the default value when the key is absent. -/
def fetch (s : DS α) (v : α) : DS α × α :=
  match s.parent v with
  | some p => (s, p)
  | none => ({ s with parent := upd s.parent v (some default) }, default)

/-- DisjointSet.hpp:30-35: `findSet` with path compression. -/
def findSet : Nat → DS α → α → Option (DS α × α)
  | 0, _, _ => none
  | n + 1, s, v =>
    let (s, p) := fetch s v
    if p ≠ v then
      match findSet n s p with
      | none => none
      | some (s, r) => some ({ s with parent := upd s.parent v (some r) }, r)
    else some (s, p)

/-- DisjointSet.hpp:37-48: `unionSet` by rank. -/
def unionSet (n : Nat) (s : DS α) (x y : α) : Option (DS α) := do
  let (s, xSet) ← findSet n s x
  let (s, ySet) ← findSet n s y
  if s.rank xSet > s.rank ySet then
    some { s with parent := upd s.parent ySet (some xSet) }
  else
    let s := { s with parent := upd s.parent xSet (some ySet) }
    if s.rank xSet = s.rank ySet then
      some { s with rank := upd s.rank ySet (s.rank ySet + 1) }
    else some s

/-- Client calls. -/
inductive Op (α : Type) where
  | find (v : α)
  | union (x y : α)

def Op.inRange (elems : List α) : Op α → Prop
  | .find v => v ∈ elems
  | .union x y => x ∈ elems ∧ y ∈ elems

/-- Run one call. -/
def step (n : Nat) (s : DS α) : Op α → Option (DS α)
  | .find v => (findSet n s v).map (·.1)
  | .union x y => unionSet n s x y

/-- Run a history. -/
def run (n : Nat) (s : DS α) : List (Op α) → Option (DS α)
  | [] => some s
  | op :: ops => (step n s op).bind (fun s => run n s ops)

/-! ### Invariant -/

/-- Every element has a parent among the elements and ranks increase towards the root. -/
structure Inv (elems : List α) (s : DS α) : Prop where
  total : ∀ v ∈ elems, ∃ p, s.parent v = some p ∧ p ∈ elems
  incr : ∀ v ∈ elems, ∀ p, s.parent v = some p → p ≠ v → s.rank v < s.rank p

/-- `r` is the representative of `v`: end of the parent chain. -/
inductive Root (s : DS α) : α → α → Prop where
  | self (v : α) : s.parent v = some v → Root s v v
  | step (v p r : α) : s.parent v = some p → p ≠ v → Root s p r → Root s v r

theorem Root.root {s : DS α} {v r : α} (h : Root s v r) : s.parent r = some r := by
  induction h with
  | self v h => exact h
  | step v p r _ _ _ ih => exact ih

theorem Root.unique {s : DS α} {v r r' : α} (h : Root s v r) (h' : Root s v r') : r = r' := by
  induction h with
  | self v h =>
    cases h' with
    | self _ _ => rfl
    | step _ p _ hp hne _ => rw [h] at hp; exact absurd (Option.some.inj hp).symm hne
  | step v p r hp hne _ ih =>
    cases h' with
    | self _ h => rw [h] at hp; exact absurd (Option.some.inj hp).symm hne
    | step _ p' _ hp' _ h'' =>
      rw [hp] at hp'; cases Option.some.inj hp'; exact ih h''

theorem Root.mem {elems : List α} {s : DS α} (inv : Inv elems s) {v r : α} (h : Root s v r)
    (hv : v ∈ elems) : r ∈ elems := by
  induction h with
  | self v h => exact hv
  | step v p r hp _ _ ih =>
    obtain ⟨q, hq, hm⟩ := inv.total v hv
    rw [hp] at hq; cases Option.some.inj hq; exact ih hm

theorem Root.rank_le {elems : List α} {s : DS α} (inv : Inv elems s) {v r : α} (h : Root s v r)
    (hv : v ∈ elems) : s.rank v ≤ s.rank r ∧ (v ≠ r → s.rank v < s.rank r) := by
  induction h with
  | self v h => exact ⟨Nat.le_refl _, fun h => absurd rfl h⟩
  | step v p r hp hne _ ih =>
    obtain ⟨q, hq, hm⟩ := inv.total v hv
    rw [hp] at hq; cases Option.some.inj hq
    have h1 := inv.incr v hv p hp hne
    have h2 := (ih hm).1
    exact ⟨by omega, fun _ => by omega⟩

/-- Number of elements of larger rank: decreases along parent pointers. -/
def above (elems : List α) (s : DS α) (v : α) : Nat :=
  elems.countP (fun e => decide (s.rank v < s.rank e))

theorem countP_lt {β : Type} (p q : β → Bool) (l : List β) (h : ∀ x, p x = true → q x = true) (a : β)
    (ha : a ∈ l) (hq : q a = true) (hp : p a = false) : l.countP p < l.countP q := by
  induction l with
  | nil => cases ha
  | cons b l ih =>
    have hle : l.countP p ≤ l.countP q := List.countP_mono_left (fun x _ => h x)
    simp only [List.countP_cons]
    cases List.mem_cons.mp ha with
    | inl e => subst e; simp [hq, hp]; omega
    | inr m =>
      have := ih m
      by_cases hb : p b = true
      · simp [hb, h b hb]; omega
      · simp [hb]; split <;> omega

theorem above_lt {elems : List α} {s : DS α} {v p : α} (hp : p ∈ elems)
    (h : s.rank v < s.rank p) : above elems s p < above elems s v := by
  apply countP_lt _ _ _ _ p hp
  · simpa using h
  · simp
  · intro x hx; simp at hx ⊢; omega

theorem above_le (elems : List α) (s : DS α) (v : α) : above elems s v ≤ elems.length :=
  List.countP_le_length

/-! ### findSet -/

/-- Compressing one path keeps the invariant and all representatives. -/
theorem compress {elems : List α} {s : DS α} (inv : Inv elems s) {v r : α} (hv : v ∈ elems)
    (h : Root s v r) :
    Inv elems { s with parent := upd s.parent v (some r) } ∧
    (∀ w t, w ∈ elems → Root s w t → Root { s with parent := upd s.parent v (some r) } w t) := by
  have hr := h.root
  have hrm := h.mem inv hv
  constructor
  · constructor
    · intro w hw
      by_cases e : w = v
      · exact ⟨r, by simp [upd, e], hrm⟩
      · simpa [upd, e] using inv.total w hw
    · intro w hw p hp hne
      by_cases e : w = v
      · subst e
        have hp : r = p := by simpa [upd] using hp
        subst hp
        exact (h.rank_le inv hw).2 (fun e => hne e.symm)
      · have hp : s.parent w = some p := by simpa [upd, e] using hp
        exact inv.incr w hw p hp hne
  · intro w t hw ht
    induction ht with
    | self w hw' =>
      by_cases e : w = v
      · subst e
        have : w = r := (Root.self w hw').unique h
        subst this
        exact Root.self _ (by simp [upd])
      · exact Root.self _ (by simpa [upd, e] using hw')
    | step w p t hp hne hpt ih =>
      obtain ⟨q, hq, hm⟩ := inv.total w hw
      rw [hp] at hq; cases Option.some.inj hq
      by_cases e : w = v
      · subst e
        have : t = r := (Root.step w p t hp hne hpt).unique h
        subst this
        have hrr : (upd s.parent w (some t)) t = some t := by
          by_cases e : t = w
          · simp [upd, e]
          · simpa [upd, e] using hr
        by_cases e : t = w
        · have hw2 := hr; rw [e, hp] at hw2; exact absurd (Option.some.inj hw2) hne
        · exact Root.step _ t _ (by simp [upd]) e (Root.self _ hrr)
      · exact Root.step _ p _ (by simpa [upd, e] using hp) hne (ih hm)

theorem findSet_spec {elems : List α} (n : Nat) : ∀ (s : DS α) (v : α), Inv elems s → v ∈ elems →
    above elems s v < n →
    ∃ s' r, findSet n s v = some (s', r) ∧ Root s v r ∧ Inv elems s' ∧ s'.rank = s.rank ∧
      (∀ w t, w ∈ elems → Root s w t → Root s' w t) := by
  induction n with
  | zero => intro s v _ _ h; omega
  | succ n ih =>
    intro s v inv hv hn
    obtain ⟨p, hp, hpm⟩ := inv.total v hv
    by_cases e : p = v
    · subst e
      exact ⟨s, p, by simp [findSet, fetch, hp], Root.self _ hp, inv, rfl, fun _ _ _ h => h⟩
    · have hlt := inv.incr v hv p hp e
      have := above_lt hpm hlt
      obtain ⟨s1, r, h1, h2, h3, h4, h5⟩ := ih s p inv hpm (by omega)
      have hvr : Root s1 v r := h5 v r hv (Root.step v p r hp e h2)
      obtain ⟨c1, c2⟩ := compress h3 hv hvr
      refine ⟨{ s1 with parent := upd s1.parent v (some r) }, r, ?_, Root.step v p r hp e h2, c1, h4, ?_⟩
      · simp [findSet, fetch, hp, e, h1]
      · intro w t hw ht; exact c2 w t hw (h5 w t hw ht)

theorem exists_root {elems : List α} {s : DS α} (inv : Inv elems s) {v : α} (hv : v ∈ elems) :
    ∃ r, Root s v r := by
  obtain ⟨_, r, _, h, _⟩ := findSet_spec (elems := elems) (above elems s v + 1) s v inv hv (by omega)
  exact ⟨r, h⟩

/-- Redirecting root `a` to root `b` (a ≠ b or a = b) with suitable ranks. -/
theorem link {elems : List α} {s : DS α} (inv : Inv elems s) {a b : α} (ha : a ∈ elems)
    (hb : b ∈ elems) (pa : s.parent a = some a) (pb : s.parent b = some b) (rk : α → Nat)
    (hrk : ∀ v, v ≠ b → rk v = s.rank v) (hge : s.rank b ≤ rk b) (hab : a ≠ b → rk a < rk b) :
    Inv elems { parent := upd s.parent a (some b), rank := rk } ∧
    (∀ w t, w ∈ elems → Root s w t →
      Root { parent := upd s.parent a (some b), rank := rk : DS α } w (if t = a then b else t)) := by
  constructor
  · constructor
    · intro w hw
      by_cases e : w = a
      · exact ⟨b, by simp [upd, e], hb⟩
      · simpa [upd, e] using inv.total w hw
    · intro w hw p hp hne
      by_cases e : w = a
      · subst e
        have hp : b = p := by simpa [upd] using hp
        subst hp
        exact hab (fun e => hne e.symm)
      · have hp : s.parent w = some p := by simpa [upd, e] using hp
        have h1 := inv.incr w hw p hp hne
        show rk w < rk p
        have hwb : w ≠ b := by
          intro e2; have hp' := hp; rw [e2, pb] at hp'
          exact hne (by rw [e2]; exact (Option.some.inj hp').symm)
        rw [hrk w hwb]
        by_cases e2 : p = b
        · subst e2; omega
        · rw [hrk p e2]; exact h1
  · intro w t hw ht
    have hbb : (upd s.parent a (some b)) b = some b := by
      by_cases e : b = a
      · simp [upd, e]
      · simpa [upd, e] using pb
    induction ht with
    | self w hw' =>
      by_cases e : w = a
      · subst e
        simp only [if_true]
        by_cases e2 : b = w
        · subst e2; exact Root.self _ hbb
        · exact Root.step _ b _ (by simp [upd]) e2 (Root.self _ hbb)
      · simp only [e, if_false]
        exact Root.self _ (by simpa [upd, e] using hw')
    | step w p t hp hne hpt ih =>
      obtain ⟨q, hq, hm⟩ := inv.total w hw
      rw [hp] at hq; cases Option.some.inj hq
      have e : w ≠ a := by
        intro e; subst e; rw [pa] at hp; exact hne (Option.some.inj hp).symm
      exact Root.step _ p _ (by simpa [upd, e] using hp) hne (ih hm)

theorem unionSet_spec {elems : List α} {s : DS α} (inv : Inv elems s) {x y : α} (hx : x ∈ elems)
    (hy : y ∈ elems) (n : Nat) (hn : elems.length < n) :
    ∃ s', unionSet n s x y = some s' ∧ Inv elems s' ∧
      ∃ rx ry, Root s x rx ∧ Root s y ry ∧ ∃ a b, (a = rx ∧ b = ry ∨ a = ry ∧ b = rx) ∧
        ∀ w t, w ∈ elems → Root s w t → Root s' w (if t = a then b else t) := by
  obtain ⟨s1, rx, f1, g1, i1, k1, m1⟩ :=
    findSet_spec (elems := elems) n s x inv hx (by have := above_le elems s x; omega)
  obtain ⟨s2, ry, f2, g2, i2, k2, m2⟩ :=
    findSet_spec (elems := elems) n s1 y i1 hy (by have := above_le elems s1 y; omega)
  have hxr : Root s2 rx rx := by
    have : Root s rx rx := Root.self _ g1.root
    have hm := g1.mem inv hx
    exact m2 _ _ hm (m1 _ _ hm this)
  have hyr : Root s2 ry ry := m2 _ _ (g2.mem i1 hy) (Root.self _ g2.root)
  have gy : Root s y ry := by
    obtain ⟨r, hr⟩ := exists_root inv hy
    have := (m1 y r hy hr).unique g2
    exact this ▸ hr
  have hxm := g1.mem inv hx
  have hym := g2.mem i1 hy
  by_cases hr : s2.rank rx > s2.rank ry
  · obtain ⟨l1, l2⟩ := link i2 hym hxm hyr.root hxr.root s2.rank (fun _ _ => rfl) (Nat.le_refl _)
      (fun _ => hr)
    refine ⟨{ s2 with parent := upd s2.parent ry (some rx) }, ?_, l1, rx, ry, g1, gy, ry, rx,
      Or.inr ⟨rfl, rfl⟩, ?_⟩
    · simp [unionSet, f1, f2, hr]
    · intro w t hw ht; exact l2 w t hw (m2 w t hw (m1 w t hw ht))
  · by_cases he : s2.rank rx = s2.rank ry
    · obtain ⟨l1, l2⟩ := link i2 hxm hym hxr.root hyr.root
        (upd s2.rank ry (s2.rank ry + 1)) (fun v hv => by simp [upd, hv]) (by simp [upd])
        (fun hne => by simp [upd, hne]; omega)
      refine ⟨{ parent := upd s2.parent rx (some ry), rank := upd s2.rank ry (s2.rank ry + 1) },
        ?_, l1, rx, ry, g1, gy, rx, ry, Or.inl ⟨rfl, rfl⟩, ?_⟩
      · simp [unionSet, f1, f2, he]
      · intro w t hw ht; exact l2 w t hw (m2 w t hw (m1 w t hw ht))
    · obtain ⟨l1, l2⟩ := link i2 hxm hym hxr.root hyr.root s2.rank (fun _ _ => rfl) (Nat.le_refl _)
        (fun _ => by omega)
      refine ⟨{ s2 with parent := upd s2.parent rx (some ry) }, ?_, l1, rx, ry, g1, gy, rx, ry,
        Or.inl ⟨rfl, rfl⟩, ?_⟩
      · simp [unionSet, f1, f2, hr, he]
      · intro w t hw ht; exact l2 w t hw (m2 w t hw (m1 w t hw ht))

theorem init_spec (elems : List α) (v : α) :
    (init elems).parent v = (if v ∈ elems then some v else none) ∧ (init elems).rank v = 0 := by
  suffices h : ∀ (l : List α) (s : DS α), s.rank v = 0 →
      (l.foldl (fun s e => { parent := upd s.parent e (some e), rank := upd s.rank e 0 : DS α }) s).parent v
        = (if v ∈ l then some v else s.parent v) ∧
      (l.foldl (fun s e => { parent := upd s.parent e (some e), rank := upd s.rank e 0 : DS α }) s).rank v = 0
    by simpa [init] using h elems { parent := fun _ => none, rank := fun _ => 0 } rfl
  intro l
  induction l with
  | nil => intro s h; simp [h]
  | cons e l ih =>
    intro s h
    simp only [List.foldl_cons]
    obtain ⟨h1, h2⟩ := ih { parent := upd s.parent e (some e), rank := upd s.rank e 0 }
      (by simp only [upd]; split <;> simp [h])
    refine ⟨?_, h2⟩
    rw [h1]
    by_cases hl : v ∈ l
    · simp [hl]
    · by_cases he : v = e
      · simp [he, upd]
      · simp [he, hl, upd]

theorem init_inv (elems : List α) : Inv elems (init elems) := by
  constructor
  · intro v hv; exact ⟨v, by simp [(init_spec elems v).1, hv], hv⟩
  · intro v hv p hp hne
    rw [(init_spec elems v).1] at hp
    simp [hv] at hp
    exact absurd hp.symm hne

end MQT.DSU

import Mathlib.Data.Rat.Floor
import Mathlib.Algebra.Order.Ring.Abs
import Mathlib.Tactic.Linarith

/-
Model of `RealNumberUniqueTable` (src/dd/RealNumberUniqueTable.cpp:27-354).

Simplifications: values are rationals instead of doubles (every double is a rational; sums and
differences with the tolerance are exact). The bucket numbers of `val - eps`, `val`, `val + eps` are
arbitrary functions of `val` in the general theorems (this covers any rounding in the hash); the actual
hash with its round-half-to-even is `hash`. A bucket is the list of its entries; `tail` is modelled
separately as in the code (`tailTable`), appending after the tail is appending to the list.
Entries get fresh addresses (theorem C10 for the memory manager). A result is a sign and an entry
(theorem C16 for sign-tagged pointers).
-/
namespace MQT.RT

set_option autoImplicit false

/-- An entry: address and value. -/
structure Entry where
  addr : Nat
  value : Rat
  deriving DecidableEq, Repr

/-- Static numbers are entries as well (RealNumber.hpp:230-240); addresses of table entries start at 3. -/
def zero : Entry := ⟨0, 0⟩
def one : Entry := ⟨1, 1⟩

/-- Parameters: tolerance, the double nearest to √2/2, and the three bucket numbers. -/
structure Cfg where
  eps : Rat
  sqrt2over2 : Rat
  lowerKey : Rat → Nat
  key : Rat → Nat
  upperKey : Rat → Nat

def Cfg.sqrt (c : Cfg) : Entry := ⟨2, c.sqrt2over2⟩

/-- RealNumberUniqueTable.hpp:190-200: members. -/
structure T where
  table : Nat → List Entry
  tail : Nat → Option Entry
  fresh : Nat
  ref : Nat → Nat
  numEntries : Nat

/-- RealNumber.cpp:65-67: `approximatelyEquals`. -/
def Cfg.approx (c : Cfg) (a b : Rat) : Bool := decide (|a - b| ≤ c.eps)

/-- `memoryManager->get` with the value set. -/
def T.get (t : T) (val : Rat) : T × Entry :=
  ({ t with fresh := t.fresh + 1, numEntries := t.numEntries + 1 }, ⟨t.fresh, val⟩)

/-- RealNumberUniqueTable.cpp:276-301: the scan of `findOrInsert`: the entries passed over, and either
the entry found or the remaining list at which it stopped. -/
def Cfg.scan (c : Cfg) (val : Rat) : List Entry → List Entry × (Entry ⊕ List Entry)
  | [] => ([], .inr [])
  | e :: l =>
    if e.value ≤ val + c.eps then
      if c.approx e.value val then
        match l with
        | [] => ([], .inl e)
        | n :: _ =>
          if val + c.eps ≥ n.value ∧ |n.value - val| < |e.value - val| then ([], .inl n)
          else ([], .inl e)
      else
        let r := c.scan val l
        (e :: r.1, r.2)
    else ([], .inr (e :: l))

/-- RealNumberUniqueTable.cpp:246-318: `findOrInsert`. -/
def T.findOrInsert (c : Cfg) (t : T) (k : Nat) (val : Rat) : T × Entry :=
  match t.table k with
  | [] =>
    let (t, e) := t.get val
    ({ t with table := fun i => if i = k then [e] else t.table i
              tail := fun i => if i = k then some e else t.tail i }, e)
  | l@(_ :: _) =>
    let scanCase : T × Entry :=
      match c.scan val l with
      | (_, .inl e) => (t, e)
      | (pre, .inr rest) =>
        let (t, e) := t.get val
        ({ t with table := fun i => if i = k then pre ++ e :: rest else t.table i
                  tail := fun i => if i = k ∧ rest = [] then some e else t.tail i }, e)
    match t.tail k with
    | some back =>
      if back.value ≤ val then
        if c.approx val back.value then (t, back)
        else
          let (t, e) := t.get val
          ({ t with table := fun i => if i = k then l ++ [e] else t.table i
                    tail := fun i => if i = k then some e else t.tail i }, e)
      else scanCase
    | none => scanCase

/-- RealNumberUniqueTable.cpp:320-333: `insertFront`. -/
def T.insertFront (t : T) (k : Nat) (val : Rat) : T × Entry :=
  let old := t.table k
  let (t, e) := t.get val
  ({ t with table := fun i => if i = k then e :: old else t.table i
            tail := fun i => if i = k ∧ old = [] then some e else t.tail i }, e)

/-- RealNumberUniqueTable.cpp:335-354: `insertBack`. -/
def T.insertBack (t : T) (k : Nat) (val : Rat) : T × Entry :=
  let back := t.tail k
  let (t, e) := t.get val
  ({ t with table := fun i => if i = k then (if back = none then [e] else t.table i ++ [e]) else t.table i
            tail := fun i => if i = k then some e else t.tail i }, e)

/-- RealNumberUniqueTable.cpp:107-113: does the entry at a border match? -/
def Cfg.matchAt (c : Cfg) (val : Rat) (o : Option Entry) : Option Entry :=
  o.filter fun e => c.approx val e.value

/-- RealNumberUniqueTable.cpp:70-142: `lookupNonNegative`. -/
def T.lookupNonNegative (c : Cfg) (t : T) (val : Rat) : T × Entry :=
  if c.approx val 1 then (t, one)
  else if c.approx val c.sqrt2over2 then (t, c.sqrt)
  else
    let lowerKey := c.lowerKey val
    let upperKey := c.upperKey val
    if upperKey = lowerKey then t.findOrInsert c lowerKey val
    else
      let key := c.key val
      let pLower := if lowerKey ≠ key then t.tail lowerKey else t.tail key
      let pUpper := if lowerKey ≠ key then (t.table key).head? else (t.table upperKey).head?
      match c.matchAt val pLower, c.matchAt val pUpper with
      | some l, some u => if |l.value - val| < |u.value - val| then (t, l) else (t, u)
      | some l, none => (t, l)
      | none, some u => (t, u)
      | none, none => if key = lowerKey then t.insertFront key val else t.insertBack key val

/-- RealNumberUniqueTable.cpp:45-54: `lookup`; the result is the negative tag and the entry. -/
def T.lookup (c : Cfg) (t : T) (val : Rat) : T × (Bool × Entry) :=
  if |val| ≤ c.eps then (t, (false, zero))
  else if val < 0 then
    let r := t.lookupNonNegative c |val|
    (r.1, (true, r.2))
  else
    let r := t.lookupNonNegative c val
    (r.1, (false, r.2))

/-- RealNumberUniqueTable.cpp:161-177: the loop of `garbageCollect` over one bucket: survivors, the
final `tailTable` entry. -/
def gcBucket (ref : Nat → Nat) : List Entry → Option Entry → List Entry × Option Entry
  | [], lastp => ([], lastp)
  | p :: l, lastp =>
    if ref p.addr = 0 then gcBucket ref l lastp
    else
      let r := gcBucket ref l (some p)
      (p :: r.1, r.2)

/-- RealNumberUniqueTable.cpp:148-193: `garbageCollect` with force (limits omitted). The tail of a
bucket is only written if the bucket was not empty. -/
def T.garbageCollect (t : T) : T :=
  if t.numEntries ≤ 1 then t
  else { t with
    table := fun k => (gcBucket t.ref (t.table k) none).1
    tail := fun k => if t.table k = [] then t.tail k else (gcBucket t.ref (t.table k) none).2 }

/-- RealNumberUniqueTable.cpp:195-205: `clear`. -/
def T.clear (t : T) : T := { t with table := fun _ => [], tail := fun _ => none, numEntries := 0 }

/-- `std::nearbyint` with the default rounding mode: to nearest, ties to even. -/
def nearbyint (x : Rat) : Int :=
  let f := ⌊x⌋
  if x - f < 1 / 2 then f
  else if 1 / 2 < x - f then f + 1
  else if f % 2 = 0 then f else f + 1

/-- RealNumberUniqueTable.cpp:38-43: `hash` for NBUCKET = 65537. -/
def hash (val : Rat) : Int := min (nearbyint (val * 65536)) 65536

/-- The actual configuration: eps = 2^-52 * 1024 (RealNumber.hpp:195-196), √2/2 as given in
DDDefinitions.hpp:46-47 (rounded to double; the exact value does not matter below). -/
def realCfg : Cfg where
  eps := 1 / 2 ^ 42
  sqrt2over2 := 6369051672525773 / 9007199254740992
  lowerKey := fun v => (hash (v - 1 / 2 ^ 42)).toNat
  key := fun v => (hash v).toNat
  upperKey := fun v => (hash (v + 1 / 2 ^ 42)).toNat

/-- RealNumberUniqueTable.cpp:27-36: constructor; 1/2 is stored with one reference. -/
def T.create (c : Cfg) : T :=
  let r := (T.mk (fun _ => []) (fun _ => none) 3 (fun _ => 0) 0).lookupNonNegative c (1 / 2)
  { r.1 with ref := fun a => if a = r.2.addr then 1 else r.1.ref a }

/-! ### Lemmas -/

theorem scan_inl {c : Cfg} {val : Rat} : ∀ {l pre e}, c.scan val l = (pre, .inl e) →
    e ∈ l ∧ |e.value - val| ≤ c.eps := by
  intro l
  induction l with
  | nil => intro pre e h; simp [Cfg.scan] at h
  | cons a l ih =>
    intro pre e h
    unfold Cfg.scan at h
    split at h
    · split at h
      · rename_i ha
        simp only [Cfg.approx, decide_eq_true_eq] at ha
        split at h
        · simp only [Prod.mk.injEq, Sum.inl.injEq] at h
          obtain ⟨_, rfl⟩ := h; exact ⟨by simp, ha⟩
        · split at h
          · rename_i hn
            simp only [Prod.mk.injEq, Sum.inl.injEq] at h
            obtain ⟨_, rfl⟩ := h
            exact ⟨by simp, le_trans (le_of_lt hn.2) ha⟩
          · simp only [Prod.mk.injEq, Sum.inl.injEq] at h
            obtain ⟨_, rfl⟩ := h; exact ⟨by simp, ha⟩
      · simp only [Prod.mk.injEq] at h
        obtain ⟨h1, h2⟩ := ih (pre := (c.scan val l).1) (e := e) (Prod.ext rfl h.2)
        exact ⟨List.mem_cons_of_mem _ h1, h2⟩
    · simp at h

theorem scan_inr {c : Cfg} {val : Rat} : ∀ {l pre rest}, c.scan val l = (pre, .inr rest) →
    l = pre ++ rest ∧ (∀ e ∈ pre, e.value ≤ val + c.eps ∧ c.approx e.value val = false) ∧
      ∀ e l', rest = e :: l' → ¬ e.value ≤ val + c.eps := by
  intro l
  induction l with
  | nil =>
    intro pre rest h
    simp only [Cfg.scan, Prod.mk.injEq, Sum.inr.injEq] at h
    obtain ⟨rfl, rfl⟩ := h
    exact ⟨rfl, by simp, by simp⟩
  | cons a l ih =>
    intro pre rest h
    unfold Cfg.scan at h
    split at h
    · rename_i hle
      split at h
      · split at h
        · simp at h
        · split at h <;> simp at h
      · rename_i ha
        simp only [Prod.mk.injEq] at h
        obtain ⟨h1, h2, h3⟩ := ih (pre := (c.scan val l).1) (rest := rest) (Prod.ext rfl h.2)
        rw [← h.1]
        refine ⟨by rw [List.cons_append, ← h1], ?_, h3⟩
        intro e he
        rcases List.mem_cons.mp he with rfl | he
        · exact ⟨hle, by simpa using ha⟩
        · exact h2 e he
    · rename_i hle
      simp only [Prod.mk.injEq, Sum.inr.injEq] at h
      obtain ⟨rfl, rfl⟩ := h
      refine ⟨rfl, by simp, ?_⟩
      intro e l' he
      simp only [List.cons.injEq] at he
      rw [← he.1]; exact hle

/-- Scanning again after inserting stops at the new entry. -/
theorem scan_again {c : Cfg} (h0 : 0 ≤ c.eps) {val : Rat} {e : Entry} (he : e.value = val) :
    ∀ {pre rest : List Entry}, (∀ e ∈ pre, e.value ≤ val + c.eps ∧ c.approx e.value val = false) →
      (∀ e l', rest = e :: l' → ¬ e.value ≤ val + c.eps) →
      ∃ p, c.scan val (pre ++ e :: rest) = (p, .inl e) := by
  intro pre
  induction pre with
  | nil =>
    intro rest _ hr
    simp only [List.nil_append]
    unfold Cfg.scan
    have ha : c.approx e.value val = true := by simp [Cfg.approx, he, h0]
    have hb : e.value ≤ val + c.eps := by rw [he]; linarith
    rw [if_pos hb, if_pos ha]
    cases rest with
    | nil => exact ⟨_, rfl⟩
    | cons n l =>
      simp only
      have := hr n l rfl
      rw [if_neg (by rintro ⟨h1, _⟩; exact this h1)]
      exact ⟨_, rfl⟩
  | cons a pre ih =>
    intro rest hp hr
    obtain ⟨p, hp'⟩ := ih (fun e he => hp e (List.mem_cons_of_mem _ he)) hr
    rw [List.cons_append]
    unfold Cfg.scan
    obtain ⟨h1, h2⟩ := hp a (by simp)
    rw [if_pos h1, h2]
    simp only [Bool.false_eq_true, if_false, hp']
    exact ⟨_, rfl⟩

end MQT.RT

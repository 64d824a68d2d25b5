import Verif.Memory.MemoryManager

set_option autoImplicit false

/-! C10: the memory manager never hands out an entry that is in use, and counts exactly. -/

namespace MQT.Mem

/-- What a client observes. -/
inductive Ev where
  | got (a : Addr)
  | ret (a : Addr)
  | wrote (a : Addr)
  | reset
  deriving DecidableEq

/-- Specification: the entries in use after a trace. -/
def inUse (tr : List Ev) : Finset Addr :=
  tr.foldl (fun s e => match e with
    | .got a => insert a s
    | .ret a => s.erase a
    | .wrote _ => s
    | .reset => ∅) ∅

/-- Specification: the entries handed out since the last reset. -/
def handedOut (tr : List Ev) : Finset Addr :=
  tr.foldl (fun s e => match e with
    | .got a => insert a s
    | .ret _ => s
    | .wrote _ => s
    | .reset => ∅) ∅

/-- Specification: the peak number of entries in use along a trace. -/
def peak (tr : List Ev) : Nat := (tr.inits.map (fun t => (inUse t).card)).foldl max 0

/-- All executions of clients that return, or write the `next_` field of, only entries in use. -/
inductive Exec (grow : Nat → Nat) (n : Nat) : List Ev → MM → Prop where
  | create : Exec grow n [] (MM.create n)
  | get {tr m m' a} : Exec grow n tr m → m.get grow = some (m', a) → Exec grow n (tr ++ [.got a]) m'
  | ret {tr m a} : Exec grow n tr m → a ∈ inUse tr → Exec grow n (tr ++ [.ret a]) (m.returnEntry a)
  | write {tr m a o} : Exec grow n tr m → a ∈ inUse tr → Exec grow n (tr ++ [.wrote a]) (m.setNext a o)
  | reset {tr m b} : Exec grow n tr m → Exec grow n (tr ++ [.reset]) (m.reset b)

theorem inUse_snoc (tr : List Ev) (e : Ev) : inUse (tr ++ [e]) = match e with
    | .got a => insert a (inUse tr)
    | .ret a => (inUse tr).erase a
    | .wrote _ => inUse tr
    | .reset => ∅ := by
  unfold inUse; rw [List.foldl_append]; rfl

theorem handedOut_snoc (tr : List Ev) (e : Ev) : handedOut (tr ++ [e]) = match e with
    | .got a => insert a (handedOut tr)
    | .ret _ => handedOut tr
    | .wrote _ => handedOut tr
    | .reset => ∅ := by
  unfold handedOut; rw [List.foldl_append]; rfl

theorem peak_snoc (tr : List Ev) (e : Ev) : peak (tr ++ [e]) = max (peak tr) (inUse (tr ++ [e])).card := by
  have : (tr ++ [e]).inits = tr.inits ++ [tr ++ [e]] := by simp [List.inits_append]
  unfold peak; rw [this, List.map_append, List.foldl_append]; rfl

theorem card_le_peak (tr : List Ev) : (inUse tr).card ≤ peak tr := by
  rcases List.eq_nil_or_concat tr with h | ⟨tr', x, h⟩
  · subst h; simp [inUse, peak]
  · subst h; rw [List.concat_eq_append, peak_snoc]; exact le_max_right _ _

theorem Exec.inv {grow : Nat → Nat} (hg : ∀ n, 0 < n → 0 < grow n) {n : Nat} (hn : 0 < n)
    {tr : List Ev} {m : MM} (h : Exec grow n tr m) :
    (∃ l, Inv m (inUse tr) l ∧ ∀ x, x ∈ handedOut tr ↔ x ∈ inUse tr ∨ x ∈ l) ∧
      m.peakNumUsed = peak tr := by
  induction h with
  | create => exact ⟨⟨[], Inv.create hn, by simp [handedOut, inUse]⟩, rfl⟩
  | @get tr m m' a _ e ih =>
    obtain ⟨⟨l, i, hh⟩, hp⟩ := ih
    obtain ⟨m2, a2, l2, e2, hn2, i2, hp2, hl⟩ := i.get hg
    rw [e] at e2
    obtain ⟨rfl, rfl⟩ : m' = m2 ∧ a = a2 := by simpa using e2
    refine ⟨⟨l2, by rw [inUse_snoc]; exact i2, ?_⟩, ?_⟩
    · intro x
      rw [handedOut_snoc, inUse_snoc]
      simp only [Finset.mem_insert, hh]
      rcases hl with rfl | ⟨rfl, rfl⟩
      · simp only [List.mem_cons]; tauto
      · simp
    · rw [peak_snoc, inUse_snoc, hp2, hp, i.used, Finset.card_insert_of_notMem hn2]
  | @ret tr m a _ ha ih =>
    obtain ⟨⟨l, i, hh⟩, hp⟩ := ih
    refine ⟨⟨a :: l, by rw [inUse_snoc]; exact i.returnEntry ha, ?_⟩, ?_⟩
    · intro x
      rw [handedOut_snoc, inUse_snoc]
      simp only [hh, Finset.mem_erase, List.mem_cons]
      by_cases e : x = a
      · subst e; simp [ha]
      · simp [e]
    rw [peak_snoc, inUse_snoc]
    have h1 := card_le_peak tr
    have h2 := Finset.card_erase_le (s := inUse tr) (a := a)
    show m.peakNumUsed = max (peak tr) ((inUse tr).erase a).card
    rw [hp, max_eq_left]; omega
  | @write tr m a o _ ha ih =>
    obtain ⟨⟨l, i, hh⟩, hp⟩ := ih
    refine ⟨⟨l, by rw [inUse_snoc]; exact i.setNext ha o, by
      intro x; rw [handedOut_snoc, inUse_snoc]; exact hh x⟩, ?_⟩
    rw [peak_snoc, inUse_snoc]
    show m.peakNumUsed = max (peak tr) (inUse tr).card
    rw [hp, max_eq_left (card_le_peak tr)]
  | @reset tr m b _ ih =>
    obtain ⟨⟨l, i, hh⟩, hp⟩ := ih
    refine ⟨⟨[], by rw [inUse_snoc]; exact i.reset b, by
      intro x; rw [handedOut_snoc, inUse_snoc]; simp⟩, ?_⟩
    rw [peak_snoc, inUse_snoc]
    show m.peakNumUsed = max (peak tr) (∅ : Finset Addr).card
    rw [hp]; simp

/-- **C10.** For every positive initial chunk size, every growth rule that maps positive sizes to
positive sizes and every execution of a client that returns only entries in use: `get` never fails,
returns an entry that is not in use and lies in allocated memory; all entries in use are in allocated
memory; the statistics equal the number of entries in use, its peak, the entries returned and not
reused, and the entries not in use.
Missing from C10: an initial size of 0, which is undefined behaviour (`c10_empty_manager_ub`), and growth rules that reach size 0. -/
theorem c10_memoryManager_partial {grow : Nat → Nat} (hg : ∀ n, 0 < n → 0 < grow n) {n : Nat} (hn : 0 < n)
    {tr : List Ev} {m : MM} (h : Exec grow n tr m) :
    (∃ m' a, m.get grow = some (m', a) ∧ a ∉ inUse tr ∧ m'.valid a) ∧
    (∀ a ∈ inUse tr, m.valid a) ∧
    m.numUsed = (inUse tr).card ∧
    m.peakNumUsed = peak tr ∧
    m.numAvailableForReuse = (handedOut tr \ inUse tr).card ∧
    m.getTotalNumAvailable + (inUse tr).card = m.numAllocated ∧
    m.getNumAvailableFromChunks + m.numAvailableForReuse + (inUse tr).card = m.numAllocated := by
  obtain ⟨⟨l, i, hh⟩, hp⟩ := h.inv hg hn
  obtain ⟨m', a, l', e, ha, i', _, _⟩ := i.get hg
  have ht := i.total
  have h1 := i.used
  have h2 := i.avail
  have h3 : (handedOut tr \ inUse tr).card = l.length := by
    rw [← List.toFinset_card_of_nodup i.nodup]
    congr 1
    ext x
    simp only [Finset.mem_sdiff, hh, List.mem_toFinset]
    constructor
    · rintro ⟨h | h, h'⟩
      · exact absurd h h'
      · exact h
    · intro h; exact ⟨Or.inr h, i.free x h⟩
  refine ⟨⟨m', a, e, ha, i'.valid (by simp)⟩, fun a ha => i.valid ha, i.used, hp, by rw [h2, h3],
    ?_, ?_⟩ <;>
    simp only [MM.getNumAvailableFromChunks, MM.getTotalNumAvailable] <;> omega

/-- The growth rule of the code (MemoryManager.hpp, `GROWTH_FACTOR = 2`). -/
theorem c10_growth_factor_two : ∀ n, 0 < n → 0 < (fun n => 2 * n) n := by intro n; simp

/-- A concrete execution: three entries from a manager of initial size 1, one returned and reused. -/
example : ∃ m, Exec (fun n => 2 * n) 1
    [.got (0, 0), .got (1, 0), .ret (0, 0), .got (0, 0), .got (1, 1), .got (2, 0)] m ∧ m.numUsed = 4 :=
  ⟨_, .get (.get (.get (.ret (.get (.get .create rfl) rfl) (by decide)) rfl) rfl) rfl, rfl⟩

/-- **Disagreement**: with `initialAllocationSize = 0` the first `get` dereferences the end iterator,
because `0 * GROWTH_FACTOR = 0` entries are allocated. -/
theorem c10_empty_manager_ub : (MM.create 0).get (fun n => 2 * n) = none := by rfl

end MQT.Mem

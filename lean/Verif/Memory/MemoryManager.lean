import Mathlib.Data.Finset.Card
import Mathlib.Data.List.Nodup
import Mathlib.Algebra.BigOperators.Group.List.Basic

set_option autoImplicit false

/-
Model of `dd::MemoryManager` (src/dd/MemoryManager.cpp:20-108,
include/mqt-core/dd/MemoryManager.hpp:30-190) with its statistics
(src/dd/statistics/MemoryManagerStatistics.cpp:43-69) and the intrusive list of LinkedListBase.hpp.

Simplifications: chunks are counted in entries instead of bytes (all sizes in the code are multiples
of `entrySize_`); an address is (buffer, slot) where every allocation gives a fresh buffer number;
counters are naturals. The growth `n ↦ (size_t)(n * GROWTH_FACTOR)` is a parameter `grow`.
-/
namespace MQT.Mem

set_option linter.unusedSectionVars false

/-- Address of an entry: buffer and slot. -/
abbrev Addr := Nat × Nat

/-- MemoryManager.hpp:155-189: members; `first` is `chunks[0]`, `more` the further chunks (newest
first), each with its buffer and number of entries; `it` is the slot of `chunkIt` in the newest chunk
(`chunkEndIt` is its end). `next` is the memory of the `next_` fields. -/
structure MM where
  available : Option Addr
  next : Addr → Option Addr
  first : Nat × Nat
  more : List (Nat × Nat)
  it : Nat
  fresh : Nat
  numAllocations : Nat
  numAllocated : Nat
  numUsed : Nat
  numAvailableForReuse : Nat
  peakNumUsed : Nat
  peakNumAvailableForReuse : Nat

/-- `chunks.back()`. -/
def MM.back (m : MM) : Nat × Nat := m.more.head?.getD m.first

/-- MemoryManager.cpp:20-28: constructor. -/
def MM.create (n : Nat) : MM where
  available := none
  next := fun _ => none
  first := (0, n)
  more := []
  it := 0
  fresh := 1
  numAllocations := 1
  numAllocated := n
  numUsed := 0
  numAvailableForReuse := 0
  peakNumUsed := 0
  peakNumAvailableForReuse := 0

/-- MemoryManagerStatistics.cpp:43-47. -/
def MM.trackUsedEntries (m : MM) : MM :=
  { m with numUsed := m.numUsed + 1, peakNumUsed := max m.peakNumUsed (m.numUsed + 1) }

/-- MemoryManagerStatistics.cpp:49-54. -/
def MM.trackReusedEntries (m : MM) : MM :=
  { m with numUsed := m.numUsed + 1, peakNumUsed := max m.peakNumUsed (m.numUsed + 1),
           numAvailableForReuse := m.numAvailableForReuse - 1 }

/-- MemoryManagerStatistics.cpp:56-61. -/
def MM.trackReturnedEntry (m : MM) : MM :=
  { m with numAvailableForReuse := m.numAvailableForReuse + 1,
           peakNumAvailableForReuse := max m.peakNumAvailableForReuse (m.numAvailableForReuse + 1),
           numUsed := m.numUsed - 1 }

/-- MemoryManager.cpp:79-91: `allocateNewChunk`. -/
def MM.allocateNewChunk (grow : Nat → Nat) (m : MM) : MM :=
  let numNewEntries := grow m.back.2
  { m with more := (m.fresh, numNewEntries) :: m.more, fresh := m.fresh + 1, it := 0,
           numAllocations := m.numAllocations + 1, numAllocated := m.numAllocated + numNewEntries }

/-- MemoryManager.cpp:104-106: `chunkIt != chunkEndIt`. -/
def MM.entryAvailableInChunk (m : MM) : Bool := m.it != m.back.2

/-- MemoryManager.cpp:93-102: `getEntryFromChunk`; `none` is the dereference of the end iterator. -/
def MM.getEntryFromChunk (m : MM) : Option (MM × Addr) :=
  if m.it < m.back.2 then
    some ({ m with it := m.it + 1 }.trackUsedEntries, (m.back.1, m.it))
  else none

/-- MemoryManager.cpp:30-40 with 70-77: `get`. -/
def MM.get (grow : Nat → Nat) (m : MM) : Option (MM × Addr) :=
  match m.available with
  | some e => some ({ m with available := m.next e }.trackReusedEntries, e)
  | none =>
    let m := if m.entryAvailableInChunk then m else m.allocateNewChunk grow
    m.getEntryFromChunk

/-- MemoryManager.cpp:42-46: `returnEntry`. -/
def MM.returnEntry (m : MM) (e : Addr) : MM :=
  { m with next := fun a => if a = e then m.available else m.next a, available := some e }.trackReturnedEntry

/-- A client writes the `next_` field of an entry. -/
def MM.setNext (m : MM) (e : Addr) (n : Option Addr) : MM :=
  { m with next := fun a => if a = e then n else m.next a }

/-- MemoryManager.cpp:48-64: `reset`. Growing `chunks[0]` reallocates its buffer. -/
def MM.reset (m : MM) (resizeToTotal : Bool) : MM :=
  let first := if resizeToTotal then
      (if m.first.2 < m.numAllocated then (m.fresh, m.numAllocated) else (m.first.1, m.numAllocated))
    else m.first
  { m with available := none, first := first, more := [], it := 0, fresh := m.fresh + 1,
           numAllocations := if resizeToTotal then m.numAllocations + 1 else m.numAllocations,
           numAllocated := first.2, numUsed := 0, numAvailableForReuse := 0 }

/-- MemoryManagerStatistics.cpp:26-33. -/
def MM.getTotalNumAvailable (m : MM) : Nat := m.numAllocated - m.numUsed
def MM.getNumAvailableFromChunks (m : MM) : Nat := m.getTotalNumAvailable - m.numAvailableForReuse

/-! ### Invariant -/

/-- `a` lies in an allocated buffer. -/
def MM.valid (m : MM) (a : Addr) : Prop :=
  ∃ c ∈ m.first :: m.more, a.1 = c.1 ∧ a.2 < c.2

/-- Chunks other than the newest. -/
def MM.older (m : MM) : List (Nat × Nat) :=
  match m.more with
  | [] => []
  | _ :: cs => m.first :: cs

/-- `a` has been cut from a chunk. -/
def MM.cut (m : MM) (a : Addr) : Prop :=
  (a.1 = m.back.1 ∧ a.2 < m.it) ∨ ∃ c ∈ m.older, a.1 = c.1 ∧ a.2 < c.2

/-- The linked list starting at `o` is `l`. -/
def Chain (next : Addr → Option Addr) : Option Addr → List Addr → Prop
  | o, [] => o = none
  | o, a :: l => o = some a ∧ Chain next (next a) l

structure Inv (m : MM) (live : Finset Addr) (l : List Addr) : Prop where
  chain : Chain m.next m.available l
  nodup : l.Nodup
  free : ∀ a ∈ l, a ∉ live
  cut : ∀ a, m.cut a ↔ a ∈ live ∨ a ∈ l
  it : m.it ≤ m.back.2
  pos : 0 < m.back.2
  posFirst : 0 < m.first.2
  ids : ((m.first :: m.more).map (·.1)).Nodup
  fresh : ∀ c ∈ m.first :: m.more, c.1 < m.fresh
  used : m.numUsed = live.card
  avail : m.numAvailableForReuse = l.length
  alloc : m.numAllocated = m.first.2 + (m.more.map (·.2)).sum
  total : live.card + l.length + (m.back.2 - m.it) = m.numAllocated

theorem Chain.congr {next next' : Addr → Option Addr} {l : List Addr} :
    ∀ {o}, (∀ a ∈ l, next' a = next a) → Chain next o l → Chain next' o l := by
  induction l with
  | nil => intro o _ h; exact h
  | cons a l ih =>
    intro o he h
    refine ⟨h.1, ?_⟩
    rw [he a (by simp)]
    exact ih (fun b hb => he b (by simp [hb])) h.2

theorem Inv.create {n : Nat} (hn : 0 < n) : Inv (MM.create n) ∅ [] where
  chain := rfl
  nodup := List.nodup_nil
  free := by simp
  cut := by simp [MM.cut, MM.create, MM.older]
  it := Nat.zero_le _
  pos := hn
  posFirst := hn
  ids := by simp [MM.create]
  fresh := by simp [MM.create]
  used := rfl
  avail := rfl
  alloc := by simp [MM.create]
  total := by simp [MM.create, MM.back]

theorem Inv.setNext {m : MM} {live : Finset Addr} {l : List Addr} (h : Inv m live l) {e : Addr}
    (he : e ∈ live) (n : Option Addr) : Inv (m.setNext e n) live l :=
  { h with
    chain := by
      refine h.chain.congr ?_
      intro a ha
      have : a ≠ e := by rintro rfl; exact h.free _ ha he
      simp [MM.setNext, this] }

theorem Inv.returnEntry {m : MM} {live : Finset Addr} {l : List Addr} (h : Inv m live l) {e : Addr}
    (he : e ∈ live) : Inv (m.returnEntry e) (live.erase e) (e :: l) where
  chain := by
    refine ⟨rfl, ?_⟩
    simp only [MM.returnEntry, MM.trackReturnedEntry, if_true]
    refine h.chain.congr ?_
    intro a ha
    have : a ≠ e := by rintro rfl; exact h.free _ ha he
    simp [this]
  nodup := List.nodup_cons.mpr ⟨fun hm => h.free e hm he, h.nodup⟩
  free := by
    intro a ha
    rcases List.mem_cons.mp ha with rfl | ha
    · simp
    · intro hm; exact h.free a ha (Finset.mem_of_mem_erase hm)
  cut := by
    intro a
    have := h.cut a
    rw [show (m.returnEntry e).cut a = m.cut a from rfl, this, Finset.mem_erase, List.mem_cons]
    by_cases e' : a = e
    · subst e'; simp [he]
    · simp [e']
  it := h.it
  pos := h.pos
  posFirst := h.posFirst
  ids := h.ids
  fresh := h.fresh
  used := by
    rw [Finset.card_erase_of_mem he, ← h.used]; rfl
  avail := by
    rw [List.length_cons, ← h.avail]; rfl
  alloc := h.alloc
  total := by
    have := h.total
    have hc : 0 < live.card := Finset.card_pos.mpr ⟨e, he⟩
    rw [Finset.card_erase_of_mem he, List.length_cons]
    show live.card - 1 + (l.length + 1) + (m.back.2 - m.it) = m.numAllocated
    omega

theorem sum_back_le (m : MM) : m.back.2 ≤ m.first.2 + (m.more.map (·.2)).sum := by
  unfold MM.back
  cases m.more with
  | nil => simp
  | cons c cs => simp; omega

theorem Inv.reset {m : MM} {live : Finset Addr} {l : List Addr} (h : Inv m live l) (b : Bool) :
    Inv (m.reset b) ∅ [] := by
  have hle : m.first.2 ≤ m.numAllocated := by rw [h.alloc]; omega
  have hp := h.posFirst
  have hf := h.fresh m.first (by simp)
  have key : 0 < (m.reset b).first.2 ∧ (m.reset b).first.1 < m.fresh + 1 := by
    unfold MM.reset
    cases b with
    | false => simp; omega
    | true => by_cases hlt : m.first.2 < m.numAllocated <;> simp [hlt] <;> omega
  exact
  { chain := rfl
    nodup := List.nodup_nil
    free := by simp
    cut := by simp [MM.cut, MM.reset, MM.older]
    it := Nat.zero_le _
    pos := key.1
    posFirst := key.1
    ids := by
      show (List.map (·.1) [(m.reset b).first]).Nodup
      simp
    fresh := by
      intro c hc
      have : c = (m.reset b).first := by simpa [MM.reset] using hc
      subst this
      exact key.2
    used := rfl
    avail := rfl
    alloc := by simp [MM.reset]
    total := by simp [MM.reset, MM.back] }

theorem Inv.getAvail {m : MM} {live : Finset Addr} {e : Addr} {l : List Addr} (h : Inv m live (e :: l)) :
    Inv ({ m with available := m.next e }.trackReusedEntries) (insert e live) l where
  chain := h.chain.2
  nodup := (List.nodup_cons.mp h.nodup).2
  free := by
    intro a ha hm
    rcases Finset.mem_insert.mp hm with rfl | hm
    · exact (List.nodup_cons.mp h.nodup).1 ha
    · exact h.free a (by simp [ha]) hm
  cut := by
    intro a
    have := h.cut a
    refine Iff.trans (b := m.cut a) Iff.rfl ?_
    rw [this]
    simp only [Finset.mem_insert, List.mem_cons]; tauto
  it := h.it
  pos := h.pos
  posFirst := h.posFirst
  ids := h.ids
  fresh := h.fresh
  used := by
    rw [Finset.card_insert_of_notMem (h.free e (by simp)), ← h.used]; rfl
  avail := by
    have := h.avail
    simp only [List.length_cons] at this
    simp only [MM.trackReusedEntries]; omega
  alloc := h.alloc
  total := by
    have := h.total
    rw [Finset.card_insert_of_notMem (h.free e (by simp))]
    simp only [List.length_cons] at this
    show live.card + 1 + l.length + (m.back.2 - m.it) = m.numAllocated
    omega

theorem Inv.alloc' {m : MM} {live : Finset Addr} {l : List Addr} {grow : Nat → Nat}
    (hg : ∀ n, 0 < n → 0 < grow n) (h : Inv m live l) (hit : m.it = m.back.2) :
    Inv (m.allocateNewChunk grow) live l where
  chain := h.chain
  nodup := h.nodup
  free := h.free
  cut := by
    intro a
    rw [← h.cut a]
    have e1 : (m.allocateNewChunk grow).cut a ↔
        ∃ c ∈ m.first :: m.more, a.1 = c.1 ∧ a.2 < c.2 := by
      simp [MM.cut, MM.allocateNewChunk, MM.older]
    rw [e1]
    unfold MM.cut MM.older
    rw [hit]
    unfold MM.back
    cases m.more with
    | nil => simp
    | cons c cs =>
      simp only [List.mem_cons, List.head?_cons, Option.getD_some, exists_eq_or_imp]
      tauto
  it := Nat.zero_le _
  pos := hg _ h.pos
  posFirst := h.posFirst
  ids := by
    have h1 := h.ids
    simp only [MM.allocateNewChunk, List.map_cons, List.nodup_cons, List.mem_cons] at h1 ⊢
    have hf := h.fresh
    refine ⟨?_, ?_, h1.2⟩
    · rintro (e | e)
      · have := hf m.first (by simp); omega
      · exact h1.1 e
    · intro e
      obtain ⟨c, hc, e⟩ := List.mem_map.mp e
      have := hf c (by simp [hc]); omega
  fresh := by
    intro c hc
    simp only [MM.allocateNewChunk, List.mem_cons] at hc ⊢
    rcases hc with rfl | rfl | hc
    · have := h.fresh m.first (by simp); omega
    · simp
    · have := h.fresh c (by simp [hc]); omega
  used := h.used
  avail := h.avail
  alloc := by
    have := h.alloc
    simp only [MM.allocateNewChunk, List.map_cons, List.sum_cons]; omega
  total := by
    have := h.total
    show live.card + l.length + (grow m.back.2 - 0) = m.numAllocated + grow m.back.2
    omega

theorem back_valid (m : MM) : m.back ∈ m.first :: m.more := by
  unfold MM.back
  cases m.more with
  | nil => simp
  | cons c cs => simp

theorem older_ne_back {m : MM} {live : Finset Addr} {l : List Addr} (h : Inv m live l) :
    ∀ c ∈ m.older, c.1 ≠ m.back.1 := by
  have h1 := h.ids
  unfold MM.older MM.back
  cases hm : m.more with
  | nil => simp
  | cons d cs =>
    rw [hm] at h1
    simp only [List.map_cons, List.nodup_cons, List.mem_cons] at h1
    intro c hc e
    simp only [List.mem_cons] at hc
    simp only [List.head?_cons, Option.getD_some] at e
    rcases hc with rfl | hc
    · exact h1.1 (Or.inl e)
    · exact h1.2.1 (List.mem_map.mpr ⟨c, hc, e⟩)

theorem Inv.fromChunk {m : MM} {live : Finset Addr} (h : Inv m live []) (hlt : m.it < m.back.2) :
    ∃ m', m.getEntryFromChunk = some (m', (m.back.1, m.it)) ∧ (m.back.1, m.it) ∉ live ∧
      Inv m' (insert (m.back.1, m.it) live) [] ∧ m'.first = m.first ∧ m'.more = m.more ∧
      m'.peakNumUsed = max m.peakNumUsed (m.numUsed + 1) := by
  have hnc : ¬ m.cut (m.back.1, m.it) := by
    rintro (⟨_, h2⟩ | ⟨c, hc, h2, _⟩)
    · exact absurd h2 (lt_irrefl _)
    · exact older_ne_back h c hc h2.symm
  have hnl : (m.back.1, m.it) ∉ live := fun hm => hnc ((h.cut _).mpr (Or.inl hm))
  refine ⟨{ m with it := m.it + 1 }.trackUsedEntries, by simp [MM.getEntryFromChunk, hlt], hnl, ?_,
    rfl, rfl, rfl⟩
  exact
  { chain := h.chain
    nodup := h.nodup
    free := by simp
    cut := by
      intro a
      have := h.cut a
      simp only [List.not_mem_nil, or_false] at this
      simp only [List.not_mem_nil, or_false, Finset.mem_insert, ← this]
      show (a.1 = m.back.1 ∧ a.2 < m.it + 1) ∨ (∃ c ∈ m.older, a.1 = c.1 ∧ a.2 < c.2) ↔ _
      unfold MM.cut
      rw [Prod.ext_iff]
      constructor
      · rintro (⟨h1, h2⟩ | h3)
        · rcases Nat.lt_succ_iff_lt_or_eq.mp h2 with h2 | h2
          · exact Or.inr (Or.inl ⟨h1, h2⟩)
          · exact Or.inl ⟨h1, h2⟩
        · exact Or.inr (Or.inr h3)
      · rintro (⟨h1, h2⟩ | ⟨h1, h2⟩ | h3)
        · exact Or.inl ⟨h1, by simp only at h2; omega⟩
        · exact Or.inl ⟨h1, by omega⟩
        · exact Or.inr h3
    it := hlt
    pos := h.pos
    posFirst := h.posFirst
    ids := h.ids
    fresh := h.fresh
    used := by
      rw [Finset.card_insert_of_notMem hnl, ← h.used]; rfl
    avail := h.avail
    alloc := h.alloc
    total := by
      have := h.total
      rw [Finset.card_insert_of_notMem hnl]
      show live.card + 1 + _ + (m.back.2 - (m.it + 1)) = m.numAllocated
      simp only [List.length_nil] at this ⊢
      omega }

/-- `get` from a state satisfying the invariant. -/
theorem Inv.get {m : MM} {live : Finset Addr} {l : List Addr} {grow : Nat → Nat}
    (hg : ∀ n, 0 < n → 0 < grow n) (h : Inv m live l) :
    ∃ m' a l', m.get grow = some (m', a) ∧ a ∉ live ∧ Inv m' (insert a live) l' ∧
      m'.peakNumUsed = max m.peakNumUsed (m.numUsed + 1) ∧ (l = a :: l' ∨ (l = [] ∧ l' = [])) := by
  unfold MM.get
  cases ha : m.available with
  | some e =>
    have hc := h.chain
    rw [ha] at hc
    cases l with
    | nil => cases hc
    | cons e' l =>
      obtain ⟨h1, h2⟩ := hc
      cases h1
      exact ⟨_, e, l, rfl, h.free e (by simp), h.getAvail, rfl, Or.inl rfl⟩
  | none =>
    have hl : l = [] := by
      have hc := h.chain
      rw [ha] at hc
      cases l with
      | nil => rfl
      | cons a l => cases hc.1
    subst hl
    simp only
    by_cases hi : m.entryAvailableInChunk = true
    · have hlt : m.it < m.back.2 := by
        have := h.it
        simp only [MM.entryAvailableInChunk, bne_iff_ne] at hi
        omega
      obtain ⟨m', e, hn, inv, _, _, hp⟩ := h.fromChunk hlt
      refine ⟨m', _, [], ?_, hn, inv, hp, Or.inr (by simp)⟩
      simp only [hi, if_true]; exact e
    · have hit : m.it = m.back.2 := by simpa [MM.entryAvailableInChunk] using hi
      have h' := h.alloc' hg hit
      obtain ⟨m', e, hn, inv, _, _, hp⟩ := h'.fromChunk h'.pos
      refine ⟨m', _, [], ?_, hn, inv, hp, Or.inr (by simp)⟩
      simp only [hi]; exact e

theorem Inv.valid {m : MM} {live : Finset Addr} {l : List Addr} (h : Inv m live l) {a : Addr}
    (ha : a ∈ live) : m.valid a := by
  rcases (h.cut a).mpr (Or.inl ha) with ⟨h1, h2⟩ | ⟨c, hc, h2⟩
  · exact ⟨m.back, back_valid m, h1, lt_of_lt_of_le h2 h.it⟩
  · refine ⟨c, ?_, h2⟩
    revert hc
    unfold MM.older
    cases m.more with
    | nil => simp
    | cons d cs => simp only [List.mem_cons]; tauto

end MQT.Mem

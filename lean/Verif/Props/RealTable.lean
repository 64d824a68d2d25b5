import Verif.Memory.RealTable
import Mathlib.Tactic.NormNum

/-! C15: the table of real numbers. -/

namespace MQT.RT

set_option autoImplicit false

/-- Specification: the number a (sign, entry) result stands for. -/
def number (r : Bool × Entry) : Rat := if r.1 then - r.2.value else r.2.value

theorem matchAt_some {c : Cfg} {val : Rat} {o : Option Entry} {e : Entry}
    (h : c.matchAt val o = some e) : o = some e ∧ |e.value - val| ≤ c.eps := by
  unfold Cfg.matchAt at h
  rw [Option.filter_eq_some_iff] at h
  refine ⟨h.1, ?_⟩
  have := h.2
  simp only [Cfg.approx, decide_eq_true_eq] at this
  rwa [abs_sub_comm]

theorem findOrInsert_close {c : Cfg} (h0 : 0 ≤ c.eps) (t : T) (k : Nat) (val : Rat) :
    |(t.findOrInsert c k val).2.value - val| ≤ c.eps := by
  have hnew : |val - val| ≤ c.eps := by simpa using h0
  have hscan : ∀ l, |(match c.scan val l with
      | (_, .inl e) => (t, e)
      | (pre, .inr rest) =>
        let (t, e) := t.get val
        ({ t with table := fun i => if i = k then pre ++ e :: rest else t.table i
                  tail := fun i => if i = k ∧ rest = [] then some e else t.tail i }, e)).2.value - val| ≤ c.eps := by
    intro l
    split
    · rename_i e hs; exact (scan_inl hs).2
    · exact hnew
  unfold T.findOrInsert
  split
  · exact hnew
  · simp only
    split
    · split
      · split
        · rename_i ha
          simp only [Cfg.approx, decide_eq_true_eq] at ha
          rw [abs_sub_comm]; exact ha
        · exact hnew
      · exact hscan _
    · exact hscan _

theorem lookupNonNegative_close {c : Cfg} (h0 : 0 ≤ c.eps) (t : T) (val : Rat) :
    |(t.lookupNonNegative c val).2.value - val| ≤ c.eps := by
  have hnew : |val - val| ≤ c.eps := by simpa using h0
  unfold T.lookupNonNegative
  split
  · rename_i h; simp only [Cfg.approx, decide_eq_true_eq] at h
    rw [abs_sub_comm]; exact h
  · split
    · rename_i h; simp only [Cfg.approx, decide_eq_true_eq] at h
      rw [abs_sub_comm]; exact h
    · simp only
      split
      · exact findOrInsert_close h0 t _ val
      · split
        · rename_i hl hu
          split
          · exact (matchAt_some hl).2
          · exact (matchAt_some hu).2
        · rename_i hl _; exact (matchAt_some hl).2
        · rename_i _ hu; exact (matchAt_some hu).2
        · split
          · exact hnew
          · exact hnew

/-- **C15**, first half: in every table state, for every number and any bucket functions, the result of a
lookup differs from the number by at most the tolerance; it is the static zero exactly for numbers
within the tolerance of zero, and otherwise carries the sign of the number. -/
theorem c15_within_tolerance (c : Cfg) (h0 : 0 ≤ c.eps) (t : T) (val : Rat) :
    let r := (t.lookup c val).2
    |number r - val| ≤ c.eps ∧ (|val| ≤ c.eps → r = (false, zero)) ∧
      (¬ |val| ≤ c.eps → (r.1 = true ↔ val < 0)) := by
  intro r
  have hr : r = (t.lookup c val).2 := rfl
  unfold T.lookup at hr
  by_cases hz : |val| ≤ c.eps
  · rw [if_pos hz] at hr
    rw [hr]
    refine ⟨?_, fun _ => rfl, fun h => absurd hz h⟩
    simp only [number, zero, Bool.false_eq_true, if_false, zero_sub, abs_neg]; exact hz
  · rw [if_neg hz] at hr
    by_cases hn : val < 0
    · rw [if_pos hn] at hr
      rw [hr]
      refine ⟨?_, fun h => absurd h hz, fun _ => ⟨fun _ => hn, fun _ => rfl⟩⟩
      have := lookupNonNegative_close h0 t |val|
      simp only [number, if_true]
      rw [abs_of_neg hn] at this ⊢
      rw [← abs_neg]
      convert this using 2
      ring
    · rw [if_neg hn] at hr
      rw [hr]
      refine ⟨?_, fun h => absurd h hz, fun _ => ⟨fun h => by simp at h, fun h => absurd h hn⟩⟩
      simp only [number, Bool.false_eq_true, if_false]
      exact lookupNonNegative_close h0 t val

theorem findOrInsert_stable {c : Cfg} (h0 : 0 ≤ c.eps) (t : T) (k : Nat) (val : Rat) :
    (t.findOrInsert c k val).1.findOrInsert c k val = t.findOrInsert c k val := by
  have happ : c.approx val val = true := by simp [Cfg.approx, h0]
  cases hl : t.table k with
  | nil =>
    have e1 : t.findOrInsert c k val = ({ t with
        fresh := t.fresh + 1, numEntries := t.numEntries + 1,
        table := fun i => if i = k then [⟨t.fresh, val⟩] else t.table i
        tail := fun i => if i = k then some ⟨t.fresh, val⟩ else t.tail i }, ⟨t.fresh, val⟩) := by
      unfold T.findOrInsert; rw [hl]; rfl
    rw [e1]
    unfold T.findOrInsert
    simp [happ]
  | cons a l =>
    -- the scan
    have hscan : ∀ tl : Option Entry, t.tail k = tl → (∀ b, tl = some b → ¬ b.value ≤ val) →
        (t.findOrInsert c k val).1.findOrInsert c k val = t.findOrInsert c k val := by
      intro tl htl hb
      have e0 : t.findOrInsert c k val = match c.scan val (a :: l) with
          | (_, .inl e) => (t, e)
          | (pre, .inr rest) =>
            let (t, e) := t.get val
            ({ t with table := fun i => if i = k then pre ++ e :: rest else t.table i
                      tail := fun i => if i = k ∧ rest = [] then some e else t.tail i }, e) := by
        unfold T.findOrInsert
        rw [hl]
        simp only
        rw [htl]
        cases tl with
        | none => rfl
        | some b => simp only [if_neg (hb b rfl)]; rfl
      generalize hs : c.scan val (a :: l) = s at e0
      obtain ⟨pre, e | rest⟩ := s
      · simp only at e0
        rw [e0]; exact e0
      · simp only [T.get] at e0
        obtain ⟨h1, h2, h3⟩ := scan_inr hs
        rw [e0]
        by_cases hr : rest = []
        · subst hr
          unfold T.findOrInsert
          simp only [if_true, and_true]
          split
          · rename_i h; simp at h
          · simp [happ]
        · obtain ⟨p, hp⟩ := scan_again (e := ⟨t.fresh, val⟩) h0 rfl h2 h3
          unfold T.findOrInsert
          simp only [if_true, hr, and_false, if_false, htl]
          split
          · rename_i h; simp at h
          · rename_i x y heq
            rw [← heq] at *
            cases tl with
            | none => simp only [hp]
            | some b => simp only [if_neg (hb b rfl), hp]
    cases htl : t.tail k with
    | none => exact hscan none htl (by simp)
    | some b =>
      by_cases hb : b.value ≤ val
      · by_cases ha : c.approx val b.value = true
        · have e0 : t.findOrInsert c k val = (t, b) := by
            unfold T.findOrInsert; rw [hl]; simp only; rw [htl]; simp only [if_pos hb, if_pos ha]
          rw [e0]; exact e0
        · have e0 : t.findOrInsert c k val = ({ t with
              fresh := t.fresh + 1, numEntries := t.numEntries + 1,
              table := fun i => if i = k then (a :: l) ++ [⟨t.fresh, val⟩] else t.table i
              tail := fun i => if i = k then some ⟨t.fresh, val⟩ else t.tail i }, ⟨t.fresh, val⟩) := by
            unfold T.findOrInsert; rw [hl]; simp only; rw [htl]; simp only [if_pos hb, if_neg ha]; rfl
          rw [e0]
          unfold T.findOrInsert
          simp [happ]
      · exact hscan (some b) htl (by rintro b' h; cases h; exact hb)

theorem lookupNonNegative_stable {c : Cfg} (h0 : 0 ≤ c.eps) (t : T) (val : Rat)
    (hc : c.upperKey val = c.lowerKey val ∨ t.table (c.key val) = [] ∨
      (t.lookupNonNegative c val).1 = t) :
    (t.lookupNonNegative c val).1.lookupNonNegative c val = t.lookupNonNegative c val := by
  by_cases hsame : (t.lookupNonNegative c val).1 = t
  · rw [hsame]
  by_cases h1 : c.approx val 1 = true
  · exact absurd (by unfold T.lookupNonNegative; simp [h1]) hsame
  by_cases h2 : c.approx val c.sqrt2over2 = true
  · exact absurd (by unfold T.lookupNonNegative; simp [h1, h2]) hsame
  by_cases hk : c.upperKey val = c.lowerKey val
  · have : ∀ s : T, s.lookupNonNegative c val = s.findOrInsert c (c.lowerKey val) val := by
      intro s; unfold T.lookupNonNegative; simp [h1, h2, hk]
    rw [this, this]; exact findOrInsert_stable h0 t _ val
  · have hemp : t.table (c.key val) = [] := by
      rcases hc with h | h | h
      · exact absurd h hk
      · exact h
      · exact absurd h hsame
    have happ : c.approx val val = true := by simp [Cfg.approx, h0]
    have key : ∀ s : T, s.lookupNonNegative c val =
        match c.matchAt val (if c.lowerKey val ≠ c.key val then s.tail (c.lowerKey val) else s.tail (c.key val)),
          c.matchAt val (if c.lowerKey val ≠ c.key val then (s.table (c.key val)).head? else
            (s.table (c.upperKey val)).head?) with
        | some l, some u => if |l.value - val| < |u.value - val| then (s, l) else (s, u)
        | some l, none => (s, l)
        | none, some u => (s, u)
        | none, none => if c.key val = c.lowerKey val then s.insertFront (c.key val) val
            else s.insertBack (c.key val) val := by
      intro s; unfold T.lookupNonNegative; simp only [h1, h2, hk, if_false, Bool.false_eq_true]; rfl
    by_cases hlk : c.key val = c.lowerKey val
    · have hlow : ∀ s : T, (if c.lowerKey val ≠ c.key val then s.tail (c.lowerKey val) else s.tail (c.key val)) =
          s.tail (c.key val) := by intro s; simp [hlk]
      have hup : ∀ s : T, (if c.lowerKey val ≠ c.key val then (s.table (c.key val)).head? else
            (s.table (c.upperKey val)).head?) = (s.table (c.upperKey val)).head? := by intro s; simp [hlk]
      have hkt := key t
      rw [hlow, hup] at hkt
      cases hm : c.matchAt val (t.tail (c.key val)) with
      | some l =>
        rw [hm] at hkt
        exfalso; apply hsame; rw [hkt]
        split
        · split <;> rfl
        · rfl
        · rename_i h _; cases h
        · rename_i h _; cases h
      | none =>
        cases hm' : c.matchAt val ((t.table (c.upperKey val)).head?) with
        | some u => rw [hm, hm'] at hkt; exact absurd (by rw [hkt]) hsame
        | none =>
          rw [hm, hm'] at hkt
          simp only [hlk, if_true] at hkt
          rw [hkt, key, hlow, hup]
          rw [hlk] at hemp hm
          have e1 : (t.insertFront (c.lowerKey val) val).1.tail (c.key val) = some ⟨t.fresh, val⟩ := by
            simp [T.insertFront, T.get, hlk, hemp]
          have e2 : (t.insertFront (c.lowerKey val) val).1.table (c.upperKey val) = t.table (c.upperKey val) := by
            simp [T.insertFront, T.get, hk]
          rw [e1, e2, hm']
          have e3 : c.matchAt val (some ⟨t.fresh, val⟩) = some ⟨t.fresh, val⟩ := by
            simp [Cfg.matchAt, happ]
          rw [e3]
          rfl
    · have hlow : ∀ s : T, (if c.lowerKey val ≠ c.key val then s.tail (c.lowerKey val) else s.tail (c.key val)) =
          s.tail (c.lowerKey val) := by intro s; rw [if_pos (Ne.symm hlk)]
      have hup : ∀ s : T, (if c.lowerKey val ≠ c.key val then (s.table (c.key val)).head? else
            (s.table (c.upperKey val)).head?) = (s.table (c.key val)).head? := by
        intro s; rw [if_pos (Ne.symm hlk)]
      have hkt := key t
      rw [hlow, hup] at hkt
      cases hm : c.matchAt val (t.tail (c.lowerKey val)) with
      | some l =>
        rw [hm] at hkt
        exfalso; apply hsame; rw [hkt]
        split
        · split <;> rfl
        · rfl
        · rename_i h _; cases h
        · rename_i h _; cases h
      | none =>
        have hm' : c.matchAt val ((t.table (c.key val)).head?) = none := by rw [hemp]; rfl
        rw [hm, hm'] at hkt
        simp only [hlk, if_false] at hkt
        rw [hkt, key, hlow, hup]
        have e1 : (t.insertBack (c.key val) val).1.tail (c.lowerKey val) = t.tail (c.lowerKey val) := by
          simp [T.insertBack, T.get, Ne.symm hlk]
        have e2 : (t.insertBack (c.key val) val).1.table (c.key val) = [⟨t.fresh, val⟩] := by
          simp [T.insertBack, T.get, hemp]
        rw [e1, e2, hm]
        have e3 : c.matchAt val ([(⟨t.fresh, val⟩ : Entry)].head?) = some ⟨t.fresh, val⟩ := by
          simp [Cfg.matchAt, happ]
        rw [e3]
        rfl

/-- **C15**, second half (partial): looking the same number up twice returns the same entry and leaves
the table as after the first lookup, if the number is not within the tolerance of a bucket border, or
its bucket was empty, or the first lookup found an existing entry. In the remaining case (a new entry
near a border of a non-empty bucket) the claim is false, see `c15_border_lookup_unstable`. -/
theorem c15_lookup_stable_partial (c : Cfg) (h0 : 0 ≤ c.eps) (t : T) (val : Rat)
    (hc : c.upperKey |val| = c.lowerKey |val| ∨ t.table (c.key |val|) = [] ∨ (t.lookup c val).1 = t) :
    (t.lookup c val).1.lookup c val = t.lookup c val := by
  by_cases hz : |val| ≤ c.eps
  · have : ∀ s : T, s.lookup c val = (s, (false, zero)) := by
      intro s; unfold T.lookup; rw [if_pos hz]
    rw [this, this]
  · have hab : |val| = if val < 0 then |val| else val := by
      split
      · rfl
      · rename_i h; exact abs_of_nonneg (not_lt.mp h)
    have hl : ∀ s : T, s.lookup c val =
        ((s.lookupNonNegative c |val|).1, (decide (val < 0), (s.lookupNonNegative c |val|).2)) := by
      intro s
      unfold T.lookup
      rw [if_neg hz]
      by_cases hn : val < 0
      · simp [hn]
      · rw [if_neg hn]; rw [if_neg hn] at hab; rw [hab]; simp [hn]
    rw [hl] at hc
    have := lookupNonNegative_stable h0 t |val| hc
    rw [hl t, hl, this]

/-- The number 32768.5/65536 lies on the border between the bucket of 1/2 and the next one. In a new
table (which contains 1/2), looking it up twice creates two different entries: `lookupNonNegative`
inserts it at the front of the bucket of 1/2, but looks for it at the back. -/
theorem c15_border_lookup_unstable :
    let t := T.create realCfg
    let r1 := t.lookup realCfg (65537 / 131072)
    let r2 := r1.1.lookup realCfg (65537 / 131072)
    r1.2 = (false, ⟨4, 65537 / 131072⟩) ∧ r2.2 = (false, ⟨5, 65537 / 131072⟩) := by
  decide +kernel

/-- Same bucket, sorted insertion and a hit within the tolerance. -/
example :
    let t := T.create realCfg
    let r1 := t.lookup realCfg (-1 / 3)
    let r2 := r1.1.lookup realCfg (1 / 3 + 1 / 2 ^ 43)
    r1.2 = (true, ⟨4, 1 / 3⟩) ∧ r2.2 = (false, ⟨4, 1 / 3⟩) ∧
      realCfg.upperKey |(-1 / 3 : Rat)| = realCfg.lowerKey |(-1 / 3 : Rat)| := by
  decide +kernel

/-! ### Garbage collection and tails -/

/-- Calls. -/
inductive Op where
  | lookup (val : Rat)
  | setRef (a n : Nat)
  | gc
  | clear

def step (c : Cfg) (t : T) : Op → T
  | .lookup val => (t.lookup c val).1
  | .setRef a n => { t with ref := fun x => if x = a then n else t.ref x }
  | .gc => t.garbageCollect
  | .clear => t.clear

def run (c : Cfg) (ops : List Op) : T := ops.foldl (step c) (T.create c)

def TailOk (t : T) : Prop := ∀ k, t.tail k = (t.table k).getLast?

theorem gcBucket_spec (ref : Nat → Nat) : ∀ (l : List Entry) (o : Option Entry),
    (gcBucket ref l o).1 = l.filter (fun e => ref e.addr ≠ 0) ∧
    (gcBucket ref l o).2 = ((l.filter (fun e => ref e.addr ≠ 0)).getLast?).or o := by
  intro l
  induction l with
  | nil => intro o; simp [gcBucket]
  | cons a l ih =>
    intro o
    unfold gcBucket
    by_cases h : ref a.addr = 0
    · rw [if_pos h, List.filter_cons_of_neg (by simp [h])]; exact ih o
    · rw [if_neg h, List.filter_cons_of_pos (by simp [h])]
      obtain ⟨h1, h2⟩ := ih (some a)
      refine ⟨by simp only [h1], ?_⟩
      simp only [h2, List.getLast?_cons]
      cases (l.filter (fun e => ref e.addr ≠ 0)).getLast? <;> simp

theorem findOrInsert_tail {c : Cfg} {t : T} (h : TailOk t) (k : Nat) (val : Rat) :
    TailOk (t.findOrInsert c k val).1 := by
  have hscan : ∀ l, t.table k = l → TailOk (match c.scan val l with
      | (_, .inl e) => (t, e)
      | (pre, .inr rest) =>
        let (t, e) := t.get val
        ({ t with table := fun i => if i = k then pre ++ e :: rest else t.table i
                  tail := fun i => if i = k ∧ rest = [] then some e else t.tail i }, e)).1 := by
    intro l hl
    split
    · exact h
    · rename_i pre rest hs
      obtain ⟨h1, _, _⟩ := scan_inr hs
      intro i
      simp only [T.get]
      by_cases hi : i = k
      · subst hi
        by_cases hr : rest = []
        · subst hr; simp
        · simp only [if_true, hr, and_false, if_false]
          rw [h i, hl, h1, List.getLast?_append, List.getLast?_append, List.getLast?_cons]
          rw [List.getLast?_eq_some_getLast hr]; simp
      · simp only [hi, false_and, if_false]; exact h i
  unfold T.findOrInsert
  split
  · intro i
    simp only [T.get]
    by_cases hi : i = k
    · simp [hi]
    · simp only [hi, if_false]; exact h i
  · rename_i hl
    simp only
    split
    · split
      · split
        · exact h
        · intro i
          simp only [T.get]
          by_cases hi : i = k
          · simp only [hi, if_true]; simp [List.getLast?_append, List.getLast?_cons]
          · simp only [hi, if_false]; exact h i
      · exact hscan _ hl
    · exact hscan _ hl

theorem lookupNonNegative_tail {c : Cfg} {t : T} (h : TailOk t) (val : Rat) :
    TailOk (t.lookupNonNegative c val).1 := by
  unfold T.lookupNonNegative
  split
  · exact h
  · split
    · exact h
    · simp only
      split
      · exact findOrInsert_tail h _ _
      · split
        · split <;> exact h
        · exact h
        · exact h
        · split
          · intro i
            simp only [T.insertFront, T.get]
            by_cases hi : i = c.key val
            · by_cases ho : t.table (c.key val) = []
              · simp [hi, ho]
              · simp only [hi, ho, and_false, if_false, if_true]
                rw [h, List.getLast?_cons, List.getLast?_eq_some_getLast ho]; simp
            · simp only [hi, false_and, if_false]; exact h i
          · intro i
            simp only [T.insertBack, T.get]
            by_cases hi : i = c.key val
            · simp only [hi, if_true]
              split <;> simp
            · simp only [hi, if_false]; exact h i

theorem run_tail (c : Cfg) (ops : List Op) : TailOk (run c ops) := by
  have h0 : TailOk (T.create c) := lookupNonNegative_tail (fun k => by simp) (1 / 2)
  have : ∀ (ops : List Op) (t : T), TailOk t → TailOk (ops.foldl (step c) t) := by
    intro ops
    induction ops with
    | nil => intro t h; exact h
    | cons o ops ih =>
      intro t h
      apply ih
      cases o with
      | lookup val =>
        simp only [step, T.lookup]
        split
        · exact h
        · split
          · exact lookupNonNegative_tail h _
          · exact lookupNonNegative_tail h _
      | setRef a n => exact h
      | gc =>
        simp only [step, T.garbageCollect]
        split
        · exact h
        · intro k
          simp only
          obtain ⟨h1, h2⟩ := gcBucket_spec t.ref (t.table k) none
          split
          · rename_i he; rw [h k, he]; rfl
          · rw [h1, h2, Option.or_none]
      | clear => intro k; rfl
  exact this ops _ h0

theorem findOrInsert_keeps {c : Cfg} (t : T) (k : Nat) (val : Rat) (j : Nat) (e : Entry)
    (he : e ∈ t.table j) : e ∈ (t.findOrInsert c k val).1.table j := by
  have hscan : ∀ l, t.table k = l → e ∈ (match c.scan val l with
      | (_, .inl e) => (t, e)
      | (pre, .inr rest) =>
        let (t, e) := t.get val
        ({ t with table := fun i => if i = k then pre ++ e :: rest else t.table i
                  tail := fun i => if i = k ∧ rest = [] then some e else t.tail i }, e)).1.table j := by
    intro l hl
    split
    · exact he
    · rename_i pre rest hs
      obtain ⟨h1, _, _⟩ := scan_inr hs
      simp only [T.get]
      by_cases hi : j = k
      · subst hi
        rw [hl, h1] at he
        simp only [if_true, List.mem_append, List.mem_cons] at he ⊢
        rcases he with h | h
        · exact Or.inl h
        · exact Or.inr (Or.inr h)
      · simp only [hi, if_false]; exact he
  unfold T.findOrInsert
  split
  · rename_i hl
    simp only [T.get]
    by_cases hi : j = k
    · subst hi; rw [hl] at he; simp at he
    · simp only [hi, if_false]; exact he
  · rename_i hl
    simp only
    split
    · split
      · split
        · exact he
        · simp only [T.get]
          by_cases hi : j = k
          · subst hi; rw [hl] at he; simp only [if_true]; exact List.mem_append_left _ he
          · simp only [hi, if_false]; exact he
      · exact hscan _ hl
    · exact hscan _ hl

/-- A lookup never loses an entry of the table. -/
theorem c15_entries_kept (c : Cfg) (ops : List Op) (val : Rat) (k : Nat) (e : Entry)
    (he : e ∈ (run c ops).table k) : e ∈ ((run c ops).lookup c val).1.table k := by
  have ht := run_tail c ops
  generalize run c ops = t at *
  have key : ∀ v, e ∈ (t.lookupNonNegative c v).1.table k := by
    intro v
    unfold T.lookupNonNegative
    split
    · exact he
    · split
      · exact he
      · simp only
        split
        · exact findOrInsert_keeps t _ _ k e he
        · split
          · split <;> exact he
          · exact he
          · exact he
          · split
            · simp only [T.insertFront, T.get]
              by_cases hi : k = c.key v
              · subst hi; simp only [if_true]; exact List.mem_cons_of_mem _ he
              · simp only [hi, if_false]; exact he
            · simp only [T.insertBack, T.get]
              by_cases hi : k = c.key v
              · subst hi
                simp only [if_true]
                split
                · rename_i hn
                  rw [ht, List.getLast?_eq_none_iff] at hn
                  rw [hn] at he; simp at he
                · exact List.mem_append_left _ he
              · simp only [hi, if_false]; exact he
  unfold T.lookup
  split
  · exact he
  · split
    · exact key _
    · exact key _

/-- With other lookups in between the entry may change even away from borders: 3/10 is first identified
with an entry 0.9·eps below; after a number 0.5·eps above has been stored, it is identified with that. -/
theorem c15_intermediate_lookup_changes_entry :
    let t := ((T.create realCfg).lookup realCfg (3 / 10 - 9 / 10 / 2 ^ 42)).1
    let r1 := t.lookup realCfg (3 / 10)
    let t2 := (r1.1.lookup realCfg (3 / 10 + 1 / 2 / 2 ^ 42)).1
    let r2 := t2.lookup realCfg (3 / 10)
    r1.2.2.addr = 4 ∧ r2.2.2.addr = 5 := by
  decide +kernel

/-- After every history of lookups, reference changes, collections and clears, `tailTable` holds the last
entry of every bucket, and a collection keeps exactly the referenced entries, in order. -/
theorem c15_tails_and_collection (c : Cfg) (ops : List Op) :
    let t := run c ops
    (∀ k, t.tail k = (t.table k).getLast?) ∧
    (1 < t.numEntries → ∀ k, t.garbageCollect.table k = (t.table k).filter fun e => t.ref e.addr ≠ 0) := by
  refine ⟨run_tail c ops, fun h k => ?_⟩
  unfold T.garbageCollect
  rw [if_neg (by omega)]
  exact (gcBucket_spec _ _ _).1

end MQT.RT

/-
Property C92: the outputs and the garbage qubits of a circuit, read off its measurements.
-/
import Verif.Opt.IOMapProof
import Verif.Props.Opt

set_option autoImplicit false

namespace MQT.Opt.IOMap

open MQT.IR

variable {P : Type}

/-- What a circuit puts out on a qubit: with measurements in the circuit, the bit of the first one of the qubit;
otherwise what the given permutation says. -/
def outputOf (out : List (ℕ × ℕ)) (ops : List (Op P)) (q : ℕ) : Option ℕ :=
  if measures ops then (pairs ops).lookup q else out.lookup q

/-- The logical qubit is no output, or it is an ancillary held by a physical qubit nothing acts on. -/
def IsGarbage (anc : List Bool) (init out : List (ℕ × ℕ)) (ops : List (Op P)) (l : ℕ) : Prop :=
  (∃ p, (p, l) ∈ init) ∧
    ((∀ q, outputOf out ops q ≠ some l) ∨
      (anc[l]? = some true ∧ ∃ p, (p, l) ∈ init ∧ ∀ o ∈ ops, p ∉ o.acts))

theorem spare_iff {ops : List (Op P)} {anc : List Bool} {E : List (ℕ × ℕ)} {l : ℕ} :
    spare ops anc E l = true ↔ anc[l]? = some true ∧ ∃ p, (p, l) ∈ E ∧ ∀ o ∈ ops, p ∉ o.acts := by
  rw [spare, List.any_eq_true]
  constructor
  · rintro ⟨⟨p, x⟩, he, h⟩
    rw [Bool.and_eq_true, Bool.and_eq_true, decide_eq_true_eq, beq_iff_eq] at h
    obtain ⟨⟨rfl, h2⟩, h3⟩ := h
    refine ⟨h2, p, he, fun o ho => ?_⟩
    simpa using List.all_eq_true.1 h3 o ho
  · rintro ⟨h2, p, he, h3⟩
    refine ⟨(p, l), he, ?_⟩
    rw [Bool.and_eq_true, Bool.and_eq_true, decide_eq_true_eq, beq_iff_eq]
    exact ⟨⟨rfl, h2⟩, List.all_eq_true.2 fun o ho => by simpa using h3 o ho⟩

/-- **C92.** The output permutation maps a qubit to the bit its first measurement writes, except where the logical qubit of this number
is garbage; a qubit without measurement is not an output. Garbage are the logical qubits that are no output, and the ancillaries on which nothing acts.
Missing from C92: measurements with a qubit measured before ahead of another one (`c92_skipped_bit`), bits that are the first of
two qubits (`c92_shared_bit`), measurements within compound operations (`c92_nested`). -/
theorem c92_outputs_partial {n : ℕ} {anc : List Bool} {init out : List (ℕ × ℕ)} {ops : List (Op P)}
    (hs : Sorted out) (hinit : ∀ e ∈ init, e.2 < n) (ha : n ≤ anc.length) (ht : tidy [] ops = true)
    (hk : out ≠ [] → ∀ e ∈ pairs ops, ∃ b, (e.1, b) ∈ out)
    (hd : ∀ q q' b, outputOf out ops q = some b → outputOf out ops q' = some b → q = q') :
    ∃ s, initIO n anc init out ops = .ok s ∧ Sorted s.out ∧ s.garbage.length = n ∧
      (∀ l < n, s.garbage[l]? = some true ↔ IsGarbage anc init out ops l) ∧
      ∀ q b, s.out.lookup q = some b ↔ outputOf out ops q = some b ∧ ¬ IsGarbage anc init out ops b := by
  -- the outputs before garbage is removed
  obtain ⟨s, T, hs1, hT, hTs, hTl⟩ : ∃ (s : St) (T : List (ℕ × ℕ)), scan (!out.isEmpty) ops { out := out } = .ok s ∧
      (if measures ops then s.out.filter fun e => decide (e.1 ∈ s.meas) else s.out) = T ∧ Sorted T ∧
      ∀ q, T.lookup q = outputOf out ops q := by
    cases hme : measures ops with
    | false =>
      refine ⟨_, out, scan_none _ ops _ hme, rfl, hs, fun q => ?_⟩
      rw [outputOf, hme]; rfl
    | true =>
      have h0 : Inv (!out.isEmpty) out [] { out := out } := by
        refine ⟨hs, by simp, by simp, fun _ => rfl, fun e q _ => ?_⟩
        have : out = [] := by simpa using e
        show out.lookup q = none
        rw [this]; rfl
      have hne : (!out.isEmpty) = true → out ≠ [] := fun e e' => by rw [e'] at e; simp at e
      obtain ⟨s, h1, h2⟩ := scan_inv ops [] { out := out } ht h0
        (fun e x hx => by
          obtain ⟨b, hb⟩ := hk (hne e) x hx
          exact List.mem_map.2 ⟨_, hb, rfl⟩)
        (fun _ q q' b e e' => hd q q' b (by rw [outputOf, hme]; exact e) (by rw [outputOf, hme]; exact e'))
      refine ⟨s, _, h1, rfl, h2.sorted.filter _, fun q => ?_⟩
      rw [if_pos rfl, lookup_filter, outputOf, hme, if_pos rfl]
      rw [List.nil_append] at h2
      by_cases hq : q ∈ s.meas
      · rw [if_pos hq, h2.val q hq]
      · rw [if_neg hq]
        cases hp : (pairs ops).lookup q with
        | none => rfl
        | some v => exact absurd ((h2.meas q).2 (by rw [hp]; rfl)) hq
  have hTd : Distinct T := fun q q' b e e' => hd q q' b (by rw [← hTl]; exact e) (by rw [← hTl]; exact e')
  obtain ⟨g, hg, hi⟩ := markAll_inv (nodup_vals hTs hTd) ha init [] ⟨T, List.replicate n false⟩ hinit
    (ginv_init ops anc n T)
  rw [List.nil_append] at hi
  have hvals : ∀ l, l ∉ T.map Prod.snd ↔ ∀ q, outputOf out ops q ≠ some l := by
    intro l
    constructor
    · intro h q e
      rw [← hTl] at e
      exact h (List.mem_map.2 ⟨_, lookup_mem e, rfl⟩)
    · intro h hm
      obtain ⟨⟨q, b⟩, he, rfl⟩ := List.mem_map.1 hm
      exact h q (by rw [← hTl]; exact (lookup_iff hTs q b).2 he)
  refine ⟨g, by rw [initIO, hs1]; simp only [MQT.Res.bind, hT]; exact hg, ?_, hi.len, fun l hl => ?_, fun q b => ?_⟩
  · rw [hi.out]; exact hTs.filter _
  · rw [hi.flag l hl, hvals, spare_iff]; rfl
  · rw [hi.out, lookup_iff (hTs.filter _), List.mem_filter, ← lookup_iff hTs, hTl]
    refine and_congr_right fun e => ?_
    have hno : ¬ ∀ q, outputOf out ops q ≠ some b := fun h => h q e
    rw [IsGarbage]
    simp only [hno, false_or, ← spare_iff]
    constructor
    · intro h h'
      rw [h'.2] at h; simp at h
    · intro h
      cases hsp : spare ops anc init b with
      | false => rfl
      | true => exact absurd ⟨spare_mem hsp, hsp⟩ h

/-- **C92.** With a permutation given in which a measured qubit does not occur, there is an exception. -/
theorem c92_throws {n : ℕ} {anc : List Bool} {init out : List (ℕ × ℕ)} {ops : List (Op P)} (ht : tidy [] ops = true)
    (hne : out ≠ []) {q b : ℕ} (hq : (q, b) ∈ pairs ops) (hk : ∀ c, (q, c) ∉ out) : initIO n anc init out ops = .throw := by
  have hf : (!out.isEmpty) = true := by cases out with
    | nil => exact absurd rfl hne
    | cons => rfl
  have key := scan_kept (out.map Prod.fst) ops { out := out } ht rfl (by simp)
  rw [initIO, hf]
  revert key
  cases scan true ops { out := out } with
  | ub => exact False.elim
  | throw => exact fun _ => rfl
  | ok s =>
    rintro ⟨-, -, h⟩
    rcases h _ hq with h | h
    · obtain ⟨⟨k, c⟩, he, e⟩ := List.mem_map.1 h
      cases (show k = q from e)
      exact absurd he (hk c)
    · simp at h

/-- **C92.** No two qubits are mapped to the same output, and no garbage qubit is one. -/
theorem c92_injective_partial {n : ℕ} {anc : List Bool} {init out : List (ℕ × ℕ)} {ops : List (Op P)}
    (hs : Sorted out) (hinit : ∀ e ∈ init, e.2 < n) (ha : n ≤ anc.length) (ht : tidy [] ops = true)
    (hk : out ≠ [] → ∀ e ∈ pairs ops, ∃ b, (e.1, b) ∈ out)
    (hd : ∀ q q' b, outputOf out ops q = some b → outputOf out ops q' = some b → q = q') {s : GSt}
    (h : initIO n anc init out ops = .ok s) :
    (s.out.map Prod.snd).Nodup ∧ ∀ q l, s.out.lookup q = some l → l < n → s.garbage[l]? = some false := by
  obtain ⟨s', h', h1, h2, h3, h4⟩ := c92_outputs_partial hs hinit ha ht hk hd
  cases h.symm.trans h'
  refine ⟨nodup_vals h1 fun q q' b e e' => hd q q' b ((h4 q b).1 e).1 ((h4 q' b).1 e').1, fun q l e hl => ?_⟩
  have := (h3 l hl).not.2 ((h4 q l).1 e).2
  have hg : s.garbage[l]? = some (s.garbage[l]'(by omega)) := List.getElem?_eq_getElem _
  rw [hg] at this ⊢
  simpa using this

/-- Identity layout. -/
def ident (n : ℕ) : List (ℕ × ℕ) := (List.range n).map fun i => (i, i)

/-- Two measurements crosswise, and a third qubit. -/
example : initIO (P := Unit) 3 [false, false, false] (ident 3) [] [.measure [0, 1] [1, 0]] =
    .ok ⟨[(0, 1), (1, 0)], [false, false, true]⟩ := by rfl

/-- The hypotheses hold for it. -/
example : tidy (P := Unit) [] [.measure [0, 1] [1, 0], .measure [1] [5]] = true := by decide

/-- The given permutation is permuted; the second measurement of qubit 0 does not count. -/
example : initIO (P := Unit) 2 [false, false] (ident 2) (ident 2) [.measure [0] [1], .measure [1, 0] [0, 7]] =
    .ok ⟨[(0, 1), (1, 0)], [false, false]⟩ := by rfl

/-- An ancillary without operations is garbage. -/
example : initIO (P := Unit) 2 [false, true] (ident 2) (ident 2) [.reset [0]] = .ok ⟨[(0, 0)], [false, true]⟩ := by rfl

/-- Qubit 0 measured into bit 0, then qubits 0 and 1 into bits 1 and 2. -/
def again : List (Op Unit) := [.measure [0] [0], .measure [0, 1] [1, 2]]

/-- **C92.** A qubit measured before is skipped, its bit is not: the next qubit gets the bit of the skipped one. Here qubit 1, which is only ever
measured into bit 2, becomes output 1, and logical qubit 2 is garbage. -/
theorem c92_skipped_bit :
    initIO 3 [false, false, false] (ident 3) [] again = .ok ⟨[(0, 0), (1, 1)], [false, false, true]⟩ ∧
      outputOf [] again 1 = some 2 := by
  constructor <;> rfl

/-- Qubits 0 and 1, both measured into bit 1. -/
def shared : List (Op Unit) := [.measure [0] [1], .measure [1] [1]]

/-- **C92.** With a permutation given, a second qubit measured into a bit takes it away from the first one, which is left with an output
it is not measured into; without one, both are mapped to the same output. -/
theorem c92_shared_bit :
    initIO 2 [false, false] (ident 2) (ident 2) shared = .ok ⟨[(0, 0), (1, 1)], [false, false]⟩ ∧
      initIO 2 [false, false] (ident 2) [] shared = .ok ⟨[(0, 1), (1, 1)], [true, false]⟩ ∧
      outputOf (ident 2) shared 0 = some 1 := by
  refine ⟨?_, ?_, ?_⟩ <;> rfl

/-- **C92.** A measurement within a compound operation is not seen: without a permutation given, all qubits become garbage. -/
theorem c92_nested :
    initIO (P := Unit) 1 [false] (ident 1) [] [.compound [.measure [0] [0]] false] = .ok ⟨[], [true]⟩ := by
  rfl

end MQT.Opt.IOMap

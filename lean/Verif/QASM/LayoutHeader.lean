/-
The comments with the initial layout and the output permutation in an OpenQASM file: writing them
(`QuantumComputation::dumpOpenQASM`, src/ir/QuantumComputation.cpp 633-661) and reading them (`Parser::parsePermutation`,
src/qasm3/Parser.cpp 901-911; `Importer::visitInitialLayout`, `visitOutputPermutation`, `visitProgram`, src/qasm3/Importer.cpp
304-311, 401-416).

A `Permutation` is a `std::map`, here the list of its entries in the order of the keys.
-/
import Verif.QASM.ScannerProof
import Mathlib.Data.List.Sort
import Mathlib.Data.List.Range
import Mathlib.Data.List.NodupEquivFin

set_option autoImplicit false

namespace MQT.QASM.Scanner

/-! ### Model -/

/-- `std::map` from qubits to qubits. -/
abbrev PMap := List (ℕ × ℕ)

/-- `emplace`: nothing changes if the key is there. -/
def emplace (k v : ℕ) : PMap → PMap
  | [] => [(k, v)]
  | e :: m => if k < e.1 then (k, v) :: e :: m else if k = e.1 then e :: m else e :: emplace k v m

/-- `qubitToIndex[physical]` (QuantumComputation.cpp 637-646): the position of a physical qubit in the initial layout.  One
that is not there is entered with 0. -/
def index (init : PMap) (p : ℕ) : ℕ := if p ∈ init.map Prod.fst then (init.map Prod.fst).idxOf p else 0

/-- The numbers printed for a map (QuantumComputation.cpp 640-651, 653-661): of every logical qubit, in order, the position
of its physical qubit. -/
def printed (init m : PMap) : List ℕ := (m.foldl (fun inv e => emplace e.2 (index init e.1) inv) []).map Prod.snd

/-- A line of the header. -/
def line (c : Char) (ns : List ℕ) : List Char := '/' :: '/' :: ' ' :: c :: ns.flatMap fun n => ' ' :: Nat.toDigits 10 n

/-- The two lines written by `dumpOpenQASM` (QuantumComputation.cpp 647-661). -/
def header (init out : PMap) : List Char := line 'i' (printed init init) ++ '\n' :: line 'o' (printed init out) ++ ['\n']

/-- The runs of digits found by `regex_search` for `\d+`, one after another; `cur` is the run so far, reversed. -/
def runs (cur : List Char) : List Char → List (List Char)
  | [] => if cur = [] then [] else [cur.reverse]
  | c :: l => if isNum c then runs (c :: cur) l else if cur = [] then runs [] l else cur.reverse :: runs [] l

/-- `stoul`, and the conversion to `Qubit`; larger numbers throw. -/
def toQubit (w : List Char) : Res ℕ := if value 10 w < 2 ^ 64 then .ok (value 10 w % 2 ^ 32) else .throw

/-- The loop of `parsePermutation`. -/
def parseRuns (logical : ℕ) (m : PMap) : List (List Char) → Res PMap
  | [] => .ok m
  | w :: ws => (toQubit w).bind fun p => parseRuns (logical + 1) (emplace p logical m) ws

/-- `parsePermutation` (Parser.cpp 901-911). -/
def parsePermutation (s : List Char) : Res PMap := parseRuns 0 [] (runs [] s)

/-- The importer's visits of the tokens with layouts (Importer.cpp 401-416), the other statements left out. -/
def visit : List Tok → PMap → PMap → Res (PMap × PMap)
  | [], i, o => .ok (i, o)
  | .layout s :: ts, i, o => (parsePermutation s).bind fun m => if i ≠ [] then .throw else visit ts m o
  | .outputs s :: ts, i, o => (parsePermutation s).bind fun m => if o ≠ [] then .throw else visit ts i m
  | _ :: ts, i, o => visit ts i o

/-- The layouts after the import (Importer.cpp 304-311), `i` and `o` being those of the declarations of registers. -/
def importLayouts (i o : PMap) (text : List Char) : Res (PMap × PMap) :=
  match scan text with
  | .ok ts => (visit ts [] []).bind fun r => .ok (if r.1 ≠ [] then r.1 else i, if r.2 ≠ [] then r.2 else o)
  | _ => .ub

/-! ### Maps -/

/-- The entries are in the order of the keys, which are distinct. -/
def Sorted (m : PMap) : Prop := m.Pairwise fun a b => a.1 < b.1

theorem emplace_mem {k v : ℕ} {m : PMap} {e : ℕ × ℕ} (h : e ∈ emplace k v m) : e = (k, v) ∨ e ∈ m := by
  induction m with
  | nil => simpa [emplace] using h
  | cons a m ih =>
    rw [emplace] at h
    split_ifs at h
    · simpa using h
    · exact .inr h
    · rcases List.mem_cons.1 h with rfl | h
      · simp
      · rcases ih h with h | h
        · exact .inl h
        · exact .inr (List.mem_cons_of_mem _ h)

theorem emplace_sorted (k v : ℕ) {m : PMap} (hm : Sorted m) : Sorted (emplace k v m) := by
  induction m with
  | nil => simp [emplace, Sorted]
  | cons a m ih =>
    obtain ⟨h1, h2⟩ := List.pairwise_cons.1 hm
    rw [emplace]
    split_ifs with h h'
    · refine List.pairwise_cons.2 ⟨fun b hb => ?_, hm⟩
      rcases List.mem_cons.1 hb with rfl | hb
      · exact h
      · exact h.trans (h1 b hb)
    · exact hm
    · refine List.pairwise_cons.2 ⟨fun b hb => ?_, ih h2⟩
      rcases emplace_mem hb with rfl | hb
      · simp only
        omega
      · exact h1 b hb

theorem emplace_perm (k v : ℕ) {m : PMap} (hk : k ∉ m.map Prod.fst) : (emplace k v m).Perm ((k, v) :: m) := by
  induction m with
  | nil => simp [emplace]
  | cons a m ih =>
    simp only [List.map_cons, List.mem_cons, not_or] at hk
    rw [emplace]
    split_ifs with h
    · exact .refl _
    · exact absurd ‹_› hk.1
    · exact ((ih hk.2).cons a).trans (.swap _ _ _)

theorem sorted_eq {a b : PMap} (ha : Sorted a) (hb : Sorted b) (h : a.Perm b) : a = b :=
  h.eq_of_pairwise (fun _ _ _ _ h1 h2 => absurd (h1.trans h2) (lt_irrefl _)) ha hb

/-- The entries of the inverse map. -/
theorem inverse_perm (init m inv : PMap) (hi : Sorted inv) (hv : (m.map Prod.snd ++ inv.map Prod.fst).Nodup) :
    Sorted (m.foldl (fun inv e => emplace e.2 (index init e.1) inv) inv) ∧
    (m.foldl (fun inv e => emplace e.2 (index init e.1) inv) inv).Perm (m.map (fun e => (e.2, index init e.1)) ++ inv) := by
  induction m generalizing inv with
  | nil => exact ⟨hi, .refl _⟩
  | cons a m ih =>
    have hk : a.2 ∉ inv.map Prod.fst := fun h => by
      have := (List.nodup_append.1 hv).2.2 a.2 (by simp) a.2 h
      exact this rfl
    have hp := emplace_perm a.2 (index init a.1) hk
    obtain ⟨h1, h2⟩ := ih (emplace a.2 (index init a.1) inv) (emplace_sorted _ _ hi) (by
      refine (List.Perm.nodup_iff ?_).1 hv
      refine .trans ?_ (List.Perm.append_left _ (hp.map Prod.fst).symm)
      simp only [List.map_cons, List.cons_append]
      exact List.perm_middle.symm)
    refine ⟨h1, h2.trans ?_⟩
    refine (List.Perm.append_left _ hp).trans ?_
    simp only [List.map_cons, List.cons_append]
    exact List.perm_middle

/-- The number of elements below one. -/
def rank (vs : List ℕ) (l : ℕ) : ℕ := (vs.filter (· < l)).length

theorem rank_perm {a b : List ℕ} (h : a.Perm b) (l : ℕ) : rank a l = rank b l := (h.filter _).length_eq

theorem rank_sorted {vs : List ℕ} (h : vs.Pairwise (· < ·)) {i : ℕ} (hi : i < vs.length) : rank vs vs[i] = i := by
  induction vs generalizing i with
  | nil => simp at hi
  | cons a vs ih =>
    obtain ⟨h1, h2⟩ := List.pairwise_cons.1 h
    cases i with
    | zero =>
      have : vs.filter (· < a) = [] := List.filter_eq_nil_iff.2 fun b hb => by have := h1 b hb; simp; omega
      simp [rank, this]
    | succ i =>
      have hi' : i < vs.length := by simpa using hi
      have := ih h2 hi'
      have ha : a < vs[i] := h1 _ (List.getElem_mem hi')
      simp only [rank, List.getElem_cons_succ, List.filter_cons, decide_eq_true ha, if_true, List.length_cons] at this ⊢
      rw [this]

theorem rank_range {vs : List ℕ} (h : vs.Perm (List.range vs.length)) {l : ℕ} (hl : l ∈ vs) : rank vs l = l := by
  have hl' : l < vs.length := by simpa using (h.mem_iff.1 hl)
  have := rank_sorted (List.pairwise_lt_range (n := vs.length)) (i := l) (by simpa using hl')
  rw [rank_perm h]
  simpa using this

/-! ### Reading numbers -/

theorem isNum_of_mem {n : ℕ} {c : Char} (h : c ∈ Nat.toDigits 10 n) : isNum c = true := by
  have := Nat.isDigit_of_mem_toDigits (by omega) (by omega) h
  simp only [Char.isDigit, Bool.and_eq_true, decide_eq_true_eq] at this
  simp only [isNum, Bool.and_eq_true, decide_eq_true_eq]
  exact ⟨this.1, this.2⟩

theorem value_toDigits (n : ℕ) : value 10 (Nat.toDigits 10 n) = n := by
  have key : ∀ l : List Char, (∀ c ∈ l, isNum c = true) → value 10 l = Nat.ofDigitChars 10 l 0 := by
    intro l
    induction l using List.reverseRecOn with
    | nil => intro _; rfl
    | append_singleton l c ih =>
      intro h
      have hc := h c (by simp)
      have h' := ih fun d hd => h d (by simp [hd])
      have hu : c ≠ '_' := ne_of_p hc (by decide)
      rw [Nat.ofDigitChars_append, ← h']
      simp [value, Nat.ofDigitChars, hu, digitVal, hc, Nat.ofDigits_cons]
      omega
  rw [key _ fun c hc => isNum_of_mem hc, Nat.ofDigitChars_ten_toDigits]

theorem runs_digits (cur w : List Char) (hw : ∀ c ∈ w, isNum c = true) (hne : w ≠ []) (l : List Char) (hl : l = [] ∨ isNum (ch l) = false) :
    runs cur (w ++ l) = (cur.reverse ++ w) :: runs [] l := by
  induction w generalizing cur with
  | nil => exact absurd rfl hne
  | cons c w ih =>
    rw [List.cons_append, runs, if_pos (hw c (by simp))]
    cases w with
    | nil =>
      rcases hl with rfl | hl
      · simp [runs]
      · cases l with
        | nil => simp [runs]
        | cons a l =>
          have ha : isNum a = false := hl
          simp [runs, ha]
    | cons d w =>
      rw [ih (c :: cur) (fun a ha => hw a (by simp [ha])) (by simp)]
      simp

theorem runs_numbers (ns : List ℕ) : runs [] (ns.flatMap fun n => ' ' :: Nat.toDigits 10 n) = ns.map (Nat.toDigits 10) := by
  induction ns with
  | nil => rfl
  | cons n ns ih =>
    rw [List.flatMap_cons, List.cons_append, runs, if_neg (by decide), if_pos rfl,
      runs_digits _ _ (fun c hc => isNum_of_mem hc) (Nat.toDigits_ne_nil), ih]
    · rfl
    · cases ns with
      | nil => exact .inl rfl
      | cons m ns => exact .inr (by simp; decide)

theorem runs_line {c : Char} (hc : isNum c = false) (ns : List ℕ) : runs [] (line c ns) = ns.map (Nat.toDigits 10) := by
  have h1 : isNum '/' = false := by decide
  have h2 : isNum ' ' = false := by decide
  simp only [line, runs, h1, h2, hc, if_true, Bool.false_eq_true, if_false, runs_numbers]

theorem toQubit_digits {n : ℕ} (h : n < 2 ^ 32) : toQubit (Nat.toDigits 10 n) = .ok n := by
  rw [toQubit, value_toDigits, if_pos (by omega), Nat.mod_eq_of_lt h]

theorem parseRuns_perm (ns : List ℕ) (hb : ∀ n ∈ ns, n < 2 ^ 32) (k : ℕ) (m : PMap) (hm : Sorted m) (hn : (ns ++ m.map Prod.fst).Nodup) :
    ∃ r, parseRuns k m (ns.map (Nat.toDigits 10)) = .ok r ∧ Sorted r ∧ r.Perm (ns.zipIdx k ++ m) := by
  induction ns generalizing k m with
  | nil => exact ⟨m, rfl, hm, .refl _⟩
  | cons n ns ih =>
    have hk : n ∉ m.map Prod.fst := fun h => (List.nodup_append.1 hn).2.2 n (by simp) n h rfl
    have hp := emplace_perm n k hk
    obtain ⟨r, h1, h2, h3⟩ := ih (fun a ha => hb a (by simp [ha])) (k + 1) (emplace n k m) (emplace_sorted _ _ hm) (by
      refine (List.Perm.nodup_iff ?_).1 hn
      refine .trans ?_ (List.Perm.append_left _ (hp.map Prod.fst).symm)
      simp only [List.map_cons, List.cons_append]
      exact List.perm_middle.symm)
    refine ⟨r, ?_, h2, h3.trans ?_⟩
    · rw [List.map_cons, parseRuns, toQubit_digits (hb n (by simp))]
      exact h1
    · refine (List.Perm.append_left _ hp).trans ?_
      simp only [List.zipIdx_cons, List.cons_append]
      exact List.perm_middle

/-! ### Round trip -/

theorem index_lt {init : PMap} {p : ℕ} (h : p ∈ init.map Prod.fst) : index init p < init.length := by
  rw [index, if_pos h]
  simpa using List.idxOf_lt_length_of_mem h

theorem index_mono {init : PMap} (hi : Sorted init) {p q : ℕ} (hp : p ∈ init.map Prod.fst) (hq : q ∈ init.map Prod.fst) (h : p < q) :
    index init p < index init q := by
  have hs : (init.map Prod.fst).Pairwise (· < ·) := List.pairwise_map.2 hi
  rw [index, if_pos hp, index, if_pos hq]
  by_contra hc
  have h1 := List.idxOf_lt_length_of_mem hp
  have h2 := List.idxOf_lt_length_of_mem hq
  have e1 := List.getElem_idxOf h1
  have e2 := List.getElem_idxOf h2
  rcases Nat.lt_or_ge ((init.map Prod.fst).idxOf q) ((init.map Prod.fst).idxOf p) with h3 | h3
  · have := List.pairwise_iff_getElem.1 hs _ _ h2 h1 h3
    omega
  · have : (init.map Prod.fst).idxOf q = (init.map Prod.fst).idxOf p := by omega
    simp only [this] at e2
    omega

/-- What is read back of a map: the physical qubits are numbered as in the initial layout, the logical ones in order. -/
def renumbered (init m : PMap) : PMap := m.map fun e => (index init e.1, rank (m.map Prod.snd) e.2)

theorem parse_line {c : Char} (hc : isNum c = false) {init m : PMap} (hi : Sorted init) (hm : Sorted m)
    (hsub : ∀ p ∈ m.map Prod.fst, p ∈ init.map Prod.fst) (hv : (m.map Prod.snd).Nodup) (hlen : init.length ≤ 2 ^ 32) :
    parsePermutation (line c (printed init m)) = .ok (renumbered init m) := by
  obtain ⟨h1, h2⟩ := inverse_perm init m [] .nil (by simpa using hv)
  set inv := m.foldl (fun inv e => emplace e.2 (index init e.1) inv) [] with hinv
  rw [List.append_nil] at h2
  have hpr : printed init m = inv.map Prod.snd := rfl
  have hmem : ∀ e ∈ m, e.1 ∈ init.map Prod.fst := fun e he => hsub e.1 (List.mem_map_of_mem he)
  have hkeys : (m.map fun e => index init e.1).Pairwise (· < ·) := by
    rw [List.pairwise_map]
    exact (List.Pairwise.and_mem.1 hm).imp fun ⟨ha, hb, h⟩ => index_mono hi (hmem _ ha) (hmem _ hb) h
  have hperm : (inv.map Prod.snd).Perm (m.map fun e => index init e.1) := by
    refine (h2.map Prod.snd).trans ?_
    rw [List.map_map]
    exact .refl _
  have hnd : (inv.map Prod.snd).Nodup := hperm.nodup_iff.2 (hkeys.imp fun h => by omega)
  obtain ⟨r, h3, h4, h5⟩ := parseRuns_perm (inv.map Prod.snd) (fun n hn => by
    obtain ⟨e, he, rfl⟩ := List.mem_map.1 (hperm.mem_iff.1 hn)
    have := index_lt (hmem e he)
    omega) 0 [] .nil (by simpa using hnd)
  rw [parsePermutation, runs_line hc, hpr, h3]
  congr 1
  refine sorted_eq h4 ?_ (h5.trans ?_)
  · rw [renumbered, Sorted, List.pairwise_map]
    exact List.pairwise_map.1 hkeys
  · rw [List.append_nil]
    have hvals : (inv.map Prod.fst).Perm (m.map Prod.snd) := by
      refine (h2.map Prod.fst).trans ?_
      rw [List.map_map]
      exact .refl _
    have e : (inv.map Prod.snd).zipIdx = inv.map fun e => (e.2, rank (m.map Prod.snd) e.1) := by
      refine List.ext_getElem (by simp) fun i h h' => ?_
      have hi' : i < (inv.map Prod.fst).length := by simpa using h'
      have := rank_sorted (vs := inv.map Prod.fst) (List.pairwise_map.2 h1) hi'
      rw [rank_perm hvals] at this
      simp only [List.getElem_map] at this
      simp [this]
    rw [e]
    refine (h2.map _).trans ?_
    rw [List.map_map]
    exact .refl _

/-- With consecutive logical qubits, and the physical qubits consecutive, everything is as before. -/
theorem renumbered_eq {init m : PMap} (hi : init.map Prod.fst = List.range init.length) (hsub : ∀ p ∈ m.map Prod.fst, p ∈ init.map Prod.fst)
    (hv : (m.map Prod.snd).Perm (List.range m.length)) : renumbered init m = m := by
  rw [renumbered]
  conv_rhs => rw [← List.map_id m]
  refine List.map_congr_left fun e he => ?_
  have h1 := hsub e.1 (List.mem_map_of_mem he)
  have h2 := rank_range (vs := m.map Prod.snd) (by simpa using hv) (List.mem_map_of_mem (f := Prod.snd) he)
  have h3 : index init e.1 = e.1 := by
    rw [index, if_pos h1]
    rw [hi] at h1 ⊢
    have h4 : e.1 < init.length := by simpa using h1
    have := List.Nodup.idxOf_getElem (List.nodup_range (n := init.length)) e.1 (by simpa using h4)
    simpa using this
  rw [h2, h3]
  rfl

/-! ### The comments -/

theorem hasLayout_mem {c : Char} {s : List Char} (h : hasLayout c s = true) : c ∈ s := by
  induction s with
  | nil => simp [hasLayout] at h
  | cons a s ih =>
    match s, ih, h with
    | [], _, h => simp [hasLayout] at h
    | [_], _, h => simp [hasLayout] at h
    | b :: d :: l, ih, h =>
      simp only [hasLayout, Bool.or_eq_true, Bool.and_eq_true, decide_eq_true_eq] at h
      rcases h with h | h
      · simp [h.1.1]
      · exact List.mem_cons_of_mem _ (ih h)

theorem mem_line {c d : Char} {ns : List ℕ} (h : d ∈ line c ns) : d = '/' ∨ d = ' ' ∨ d = c ∨ isNum d = true := by
  simp only [line, List.mem_cons, List.mem_flatMap] at h
  rcases h with h | h | h | h | ⟨n, -, h | h⟩
  · exact .inl h
  · exact .inl h
  · exact .inr (.inl h)
  · exact .inr (.inr (.inl h))
  · exact .inr (.inl h)
  · exact .inr (.inr (.inr (isNum_of_mem h)))

theorem hasLayout_line (c : Char) {ns : List ℕ} (hn : ns ≠ []) : hasLayout c (line c ns) = true := by
  cases ns with
  | nil => exact absurd rfl hn
  | cons n ns =>
    obtain ⟨d, ds, hd⟩ := List.exists_cons_of_ne_nil (Nat.toDigits_ne_nil (n := n) (b := 10))
    have h := isNum_of_mem (n := n) (c := d) (by rw [hd]; simp)
    simp [line, hasLayout, hd, h]

theorem classify_i {ns : List ℕ} (hn : ns ≠ []) : classify (line 'i' ns) = some (.layout (line 'i' ns)) := by
  rw [classify, if_pos (hasLayout_line _ hn)]

theorem classify_o {ns : List ℕ} (hn : ns ≠ []) : classify (line 'o' ns) = some (.outputs (line 'o' ns)) := by
  rw [classify, if_neg, if_pos (hasLayout_line _ hn)]
  intro h
  rcases mem_line (hasLayout_mem h) with h | h | h | h <;> revert h <;> decide

theorem text_line {c : Char} (hc : c ≠ '\n' ∧ c ≠ '\x00') {ns : List ℕ} {t : Tok} (ht : classify (line c ns) = some t) {rest : List Char}
    {ts : List Tok} (hr : Text rest ts) : Text (line c ns ++ '\n' :: rest) (t :: ts) := by
  refine Text.comment [] (' ' :: c :: ns.flatMap fun n => ' ' :: Nat.toDigits 10 n) rest t ts .nil (fun d hd => ?_) ht hr
  have := mem_line (c := c) (ns := ns) (d := d) (by rw [line]; exact List.mem_cons_of_mem _ (List.mem_cons_of_mem _ hd))
  rcases this with rfl | rfl | rfl | h
  · decide
  · decide
  · exact hc
  · exact ⟨ne_of_p h (by decide), ne_of_p h (by decide)⟩

/-- No token with a layout. -/
def Plain (ts : List Tok) : Prop := ∀ t ∈ ts, ∀ s, t ≠ .layout s ∧ t ≠ .outputs s

theorem visit_plain {ts : List Tok} (h : Plain ts) (i o : PMap) : visit ts i o = .ok (i, o) := by
  induction ts with
  | nil => rfl
  | cons t ts ih =>
    have ht := h t (by simp)
    have := ih fun a ha => h a (by simp [ha])
    cases t <;> simp_all [visit]

end MQT.QASM.Scanner

/-
Writing diagrams to a stream, reading them back, and copying them to another package.

Source in /repo: src/dd/Export.cpp 470-636 (`serialize`, `serializeMatrix`), include/mqt-core/dd/Package.hpp 1781-1857
(`transfer`), 1867-1971 (`deserialize`), 1987-2015 (`deserializeNode`).

Simplifications:
* A pointer to a node is the node itself: within a package equal nodes are shared (C11, C34).
* A stream is the root weight and the list of records.  Numbers and the syntax of a line are not modelled: the text format
  prints weights with 16 digits, which is taken to be exact.
* The version check is left out.
* `approximatelyZero` is equality with zero, as everywhere in this model.
* A map is a list of pairs; the default value that `operator[]` inserts for an absent key is modelled in `transfer`, where it
  occurs (`c101_matrix`), and not in `serialize`, where the proof shows that it does not occur.
-/
import Verif.DD.States

set_option autoImplicit false

noncomputable section

open Classical

namespace MQT.DD

/-! ### The traversal with one stack -/

/-- The state of the loop: the current node (`term` for a terminal and for `nullptr`), the stack and what has been produced. -/
structure Trav (ι σ : Type) where
  cur : Node ι
  stack : List (Node ι)
  acc : σ

/-- What a traversal works with: the successors after the first one in ascending order, the nodes that are finished, the
production of a node, and whether the top of an empty stack is read (`transfer`) or not (`serialize`). -/
structure Walk (ι σ : Type) where
  first : ι
  others : List ι
  known : σ → Node ι → Bool
  emit : σ → Node ι → σ
  strict : Bool

variable {ι σ : Type}

/-- One round of the search for an unfinished successor on top of the stack. -/
def Walk.child (W : Walk ι σ) (s : σ) (stack : List (Node ι)) (w : ι → ℂ) (c : ι → Node ι) : List ι → Option Bool
  | [] => some false
  | i :: is =>
    if w i = 0 ∨ W.known s (c i) = true then W.child s stack w c is
    else match stack with
      | [] => if W.strict then none else W.child s stack w c is
      | t :: _ => if c i = t then some true else W.child s stack w c is

/-- The loop: descending pushes the unfinished successors and the node itself; otherwise the top of the stack is popped.
`none`: undefined behaviour, or out of steps. -/
def Walk.run (W : Walk ι σ) : ℕ → Trav ι σ → Option σ
  | 0, _ => none
  | k + 1, st =>
    match st.cur with
    | .node v w c =>
      W.run k ⟨c W.first, .node v w c :: ((W.others.filter fun i => c i ≠ .term ∧ w i ≠ 0 ∧ W.known st.acc (c i) = false).map c
        ++ st.stack), st.acc⟩
    | .term =>
      match st.stack with
      | [] => some st.acc
      | .term :: _ => none
      | .node v w c :: s =>
        match W.child st.acc s w c W.others with
        | none => none
        | some true => W.run k ⟨s.headD .term, .node v w c :: s.tail, st.acc⟩
        | some false =>
          if W.known st.acc (.node v w c) = true then W.run k ⟨.term, s, st.acc⟩
          else W.run k ⟨.term, s, W.emit st.acc (.node v w c)⟩

/-! ### Serialisation -/

/-- One line of the stream: index, level and the successors; `none` is the empty pair of brackets of the text format. -/
structure Line (ι : Type) where
  index : ℤ
  v : ℕ
  edge : ι → Option (ℤ × ℂ)

/-- The indices given so far, and the lines written. -/
structure Ser (ι : Type) where
  index : List (Node ι × ℤ)
  lines : List (Line ι)

/-- Look-up in a map with keys without decidable equality. -/
def find {α β : Type} (m : List (α × β)) (a : α) : Option β :=
  match m with
  | [] => none
  | (k, b) :: m => if k = a then some b else find m a

/-- The line of a node. -/
def lineOf (binary : Bool) (index : List (Node ι × ℤ)) (k : ℤ) (v : ℕ) (w : ι → ℂ) (c : ι → Node ι) : Line ι :=
  ⟨k, v, fun i => if binary = false ∧ w i = 0 then none
    else some (if c i = .term then -1 else (find index (c i)).getD 0, w i)⟩

/-- Writing a node with the next index. -/
def emitLine (binary : Bool) (s : Ser ι) : Node ι → Ser ι
  | .term => s
  | .node v w c =>
    let index := (.node v w c, (s.index.length : ℤ)) :: s.index
    ⟨index, s.lines ++ [lineOf binary index s.index.length v w c]⟩

/-- The traversal of `serialize` for vectors. -/
def serWalk (binary : Bool) : Walk Bool (Ser Bool) :=
  ⟨false, [true], fun s p => (find s.index p).isSome, emitLine binary, false⟩

/-- `serialize` for vectors: root weight and lines. -/
def serializeV (binary : Bool) (steps : ℕ) (e : VEdge) : Option (ℂ × List (Line Bool)) :=
  if e.p = .term then some (e.w, [])
  else ((serWalk binary).run steps ⟨e.p, [], ⟨[], []⟩⟩).map fun s => (e.w, s.lines)

/-- `serializeMatrix`: the visited nodes besides indices and lines. -/
def serM (binary : Bool) : MNode → List MNode × Ser RC → List MNode × Ser RC
  | .term, st => st
  | .node v w c, st =>
    let st := rcs.foldl (fun st i => if c i ∈ st.1 then st else serM binary (c i) (c i :: st.1, st.2)) st
    let index := if (find st.2.index (.node v w c)).isSome then st.2.index
      else (.node v w c, (st.2.index.length : ℤ)) :: st.2.index
    (st.1, ⟨index, st.2.lines ++ [lineOf binary index ((find index (.node v w c)).getD 0) v w c]⟩)

/-- `serialize` for matrices. -/
def serializeM (binary : Bool) (e : MEdge) : ℂ × List (Line RC) := (e.w, (serM binary e.p ([], ⟨[], []⟩)).2.lines)

/-- `deserializeNode`. -/
def deNode (make : ℕ → (ι → Edge ι) → Edge ι) (nodes : List (ℤ × Node ι)) (l : Line ι) : List (ℤ × Node ι) × Edge ι :=
  if l.index = -1 then (nodes, .zero)
  else
    let r := make l.v fun i => match l.edge i with
      | none => .zero
      | some (k, w) => if k = -2 then .zero else if k = -1 then ⟨.term, w⟩ else ⟨(find nodes k).getD .term, w⟩
    ((l.index, r.p) :: nodes, r)

/-- `deserialize`. -/
def deserialize (make : ℕ → (ι → Edge ι) → Edge ι) (file : ℂ × List (Line ι)) : Edge ι :=
  let r := file.2.foldl (fun st l => deNode make st.1 l) ([], (⟨.term, 0⟩ : Edge ι))
  ⟨r.2.p, r.2.w * file.1⟩

/-! ### Transfer to another package -/

/-- The nodes mapped so far, and the last edge made. -/
structure Tra (ι : Type) where
  mapped : List (Node ι × Node ι)
  root : Edge ι

/-- `mappedNode[p]`: an absent key is inserted with the null pointer. -/
def mappedAt (m : List (Node ι × Node ι)) (p : Node ι) : List (Node ι × Node ι) × Node ι :=
  match find m p with
  | some q => (m, q)
  | none => ((p, .term) :: m, .term)

/-- The successors of the copy of a node (Package.hpp 1841-1849). -/
def copyEdges (w : ι → ℂ) (c : ι → Node ι) : List ι → List (Node ι × Node ι) → List (Node ι × Node ι) × (ι → Edge ι)
  | [], m => (m, fun _ => .zero)
  | i :: is, m =>
    let r := if c i = .term then (m, .term) else mappedAt m (c i)
    let s := copyEdges w c is r.1
    (s.1, fun j => if j = i then ⟨r.2, w i⟩ else s.2 j)

/-- Copying a node. -/
def emitCopy (make : ℕ → (ι → Edge ι) → Edge ι) (all : List ι) (s : Tra ι) : Node ι → Tra ι
  | .term => s
  | .node v w c =>
    let r := copyEdges w c all s.mapped
    let root := make v r.2
    ⟨(.node v w c, root.p) :: r.1, root⟩

/-- The traversal of `transfer`. -/
def traWalk (make : ℕ → (ι → Edge ι) → Edge ι) (first : ι) (others : List ι) : Walk ι (Tra ι) :=
  ⟨first, others, fun s p => (find s.mapped p).isSome, emitCopy make (first :: others), true⟩

/-- `transfer`. -/
def transfer (make : ℕ → (ι → Edge ι) → Edge ι) (first : ι) (others : List ι) (steps : ℕ) (e : Edge ι) : Option (Edge ι) :=
  if e.p = .term then some e
  else ((traWalk make first others).run steps ⟨e.p, [], ⟨[], .zero⟩⟩).map fun s => ⟨s.root.p, e.w * s.root.w⟩

/-- `transfer` for vectors. -/
def transferV : ℕ → VEdge → Option VEdge := transfer makeVE false [true]
/-- `transfer` for matrices. -/
def transferM : ℕ → MEdge → Option MEdge := transfer makeM (false, false) [(false, true), (true, false), (true, true)]

/-! ### Nodes of the package are reproduced -/

theorem makeV_self {v : ℕ} {w : Bool → ℂ} {c : Bool → VNode} (h : vtop w = 1) (hc : ∀ b, w b = 0 → c b = .term) :
    makeV v (fun b => ⟨c b, w b⟩) = ⟨.node v w c, 1⟩ := by
  rw [makeV, vNormalize_eq]
  simp only [h, one_ne_zero, if_false, div_one]
  congr 2
  funext b
  split_ifs with h0
  · exact (hc b h0).symm
  · rfl

theorem makeM_self {v : ℕ} {w : RC → ℂ} {c : RC → MNode} (h : mtop w = 1) (hi : ¬ IdLike w c) (hc : ∀ b, w b = 0 → c b = .term) :
    makeM v (fun b => ⟨c b, w b⟩) = ⟨.node v w c, 1⟩ := by
  have hc' : (fun b => if w b = 0 then .term else c b) = c := by
    funext b
    split_ifs with h0
    · exact (hc b h0).symm
    · rfl
  rw [makeM, mNormalize_eq]
  simp only [h, one_ne_zero, if_false, div_one, hc', skipId, if_neg hi]

theorem makeVE_self {v : ℕ} {w : Bool → ℂ} {c : Bool → VNode} (h : vtop w = 1) (hc : ∀ b, w b = 0 → c b = .term) :
    makeVE v (fun b => ⟨c b, w b⟩) = ⟨.node v w c, 1⟩ := by
  rw [← makeV_self h hc]
  exact vNormalizeE_eq v _ hc

theorem find_cons_self {α β : Type} (m : List (α × β)) (a : α) (b : β) : find ((a, b) :: m) a = some b := by
  simp [find]

theorem find_cons_ne {α β : Type} (m : List (α × β)) {a a' : α} (b : β) (h : a ≠ a') : find ((a, b) :: m) a' = find m a' := by
  simp [find, h]

/-! ### The traversal of vectors -/

/-- The successors of a node are finished. -/
def Done (W : Walk Bool σ) (s : σ) : VNode → Prop
  | .term => True
  | .node _ _ c => ∀ b, c b ≠ .term → W.known s (c b) = true

/-- What the traversal needs of `emit`. -/
structure Walk.Ok (W : Walk Bool σ) (I : σ → Prop) : Prop where
  first : W.first = false
  others : W.others = [true]
  term : ∀ s, I s → W.known s .term = false
  done : ∀ s p, I s → W.known s p = true → Done W s p
  emit : ∀ s n p, I s → VCan (n + 1) p → Done W s p → W.known s p = false →
    I (W.emit s p) ∧ ∀ q, W.known (W.emit s p) q = true ↔ W.known s q = true ∨ q = p

theorem Walk.run_node (W : Walk ι σ) (k : ℕ) (v : ℕ) (w : ι → ℂ) (c : ι → Node ι) (st : List (Node ι)) (s : σ) :
    W.run (k + 1) ⟨.node v w c, st, s⟩ = W.run k ⟨c W.first, .node v w c ::
      ((W.others.filter fun i => c i ≠ .term ∧ w i ≠ 0 ∧ W.known s (c i) = false).map c ++ st), s⟩ := rfl

/-- Popping a finished node, or one whose successors are finished. -/
theorem Walk.Ok.pop {W : Walk Bool σ} {I : σ → Prop} (h : W.Ok I) {v : ℕ} {w : Bool → ℂ} {c : Bool → VNode} {st : List VNode}
    {s : σ} (_hI : I s) (hd : Done W s (.node v w c)) (ht : ∀ t ∈ st, t ≠ .term)
    (hs : W.strict = true → st = [] → c true = .term → w true = 0) (k : ℕ) :
    W.run (k + 1) ⟨.term, .node v w c :: st, s⟩ =
      W.run k ⟨.term, st, if W.known s (.node v w c) = true then s else W.emit s (.node v w c)⟩ := by
  have hc : W.child s st w c W.others = some false := by
    rw [h.others, Walk.child.eq_def]
    simp only
    by_cases h0 : w true = 0 ∨ W.known s (c true) = true
    · rw [if_pos h0]; rfl
    · rw [if_neg h0]
      push Not at h0
      have hct : c true = .term := by
        by_contra hne
        exact h0.2 (hd true hne)
      match st, ht, hs with
      | [], _, hs =>
        simp only
        rw [if_neg (fun hst => h0.1 (hs hst rfl hct))]
        rfl
      | t :: _, ht, _ =>
        simp only
        rw [hct, if_neg (fun h => ht t (List.mem_cons_self ..) h.symm)]
        rfl
  simp only [Walk.run, hc]
  split_ifs <;> rfl

/-- What processing a node with `n` levels below it does. -/
structure After (W : Walk Bool σ) (I : σ → Prop) (n : ℕ) (p : VNode) (s s' : σ) : Prop where
  inv : I s'
  known : W.known s' p = true
  mono : ∀ q, W.known s q = true → W.known s' q = true
  same : W.known s p = true → s' = s
  last : W.known s p = false → ∃ s0, s' = W.emit s0 p ∧ I s0 ∧ Done W s0 p ∧ W.known s0 p = false
  new : ∀ q, W.known s' q = true → W.known s q = true ∨ ∃ m ≤ n, VCan (m + 1) q

/-- Processing a node: afterwards it is finished; it is the last node produced, if it was not finished before. -/
theorem Walk.Ok.process {W : Walk Bool σ} {I : σ → Prop} (h : W.Ok I) (p : VNode) : ∀ (n : ℕ) (st : List VNode) (s : σ),
    I s → VCan (n + 1) p → (∀ t ∈ st, t ≠ .term) → (W.strict = true → st = [] → 2 ≤ n) →
    ∃ k s', (∀ f, W.run (k + f) ⟨p, st, s⟩ = W.run f ⟨.term, st, s'⟩) ∧ After W I n p s s' := by
  induction p with
  | term => intro n st s hI hc; exact absurd hc (by simp [VCan])
  | node v w c ih =>
    intro n st s hI hc ht hst
    have hcan := hc
    obtain ⟨hv, htop, hcc⟩ := hc
    obtain rfl : n = v := by omega
    -- a successor, which may be a terminal
    have sub : ∀ b (st : List VNode) (s : σ), I s → (∀ t ∈ st, t ≠ .term) → st ≠ [] →
        ∃ k s', (∀ f, W.run (k + f) ⟨c b, st, s⟩ = W.run f ⟨.term, st, s'⟩) ∧ I s' ∧ (c b ≠ .term → W.known s' (c b) = true) ∧
          (∀ q, W.known s q = true → W.known s' q = true) ∧ ((c b ≠ .term → W.known s (c b) = true) → s' = s) ∧
          ∀ q, W.known s' q = true → W.known s q = true ∨ ∃ m < n, VCan (m + 1) q := by
      intro b st s hI ht hne
      by_cases hb : c b = .term
      · rw [hb]
        exact ⟨0, s, fun f => by rw [Nat.zero_add], hI, fun h => absurd rfl h, fun _ h => h, fun _ => rfl, fun _ h => .inl h⟩
      · have hw : w b ≠ 0 := fun h0 => hb ((hcc b).1 h0)
        have hcb := (hcc b).2 hw
        cases n with
        | zero =>
          exfalso
          cases hcb' : c b with
          | term => exact hb hcb'
          | node v' w' c' => rw [hcb'] at hcb; exact absurd hcb.1 (by omega)
        | succ n =>
          obtain ⟨k, s', h1, h2⟩ := ih b n st s hI hcb ht (fun _ h => absurd h hne)
          refine ⟨k, s', h1, h2.inv, fun _ => h2.known, h2.mono, fun h => h2.same (h hb), fun q hq => ?_⟩
          rcases h2.new q hq with h3 | ⟨m, hm, h3⟩
          · exact .inl h3
          · exact .inr ⟨m, by omega, h3⟩
    have hnode : ∀ {s s' : σ}, (∀ q, W.known s' q = true → W.known s q = true ∨ ∃ m < n, VCan (m + 1) q) →
        W.known s (.node n w c) = false → W.known s' (.node n w c) = false := by
      intro s s' hnew hk
      by_contra hk'
      rcases hnew _ (by simpa using hk') with h1 | ⟨m, hm, h1⟩
      · rw [h1] at hk; exact absurd hk (by simp)
      · exact absurd h1.1 (by omega)
    -- the terminal successor of a node on high level has weight zero
    have hz : 2 ≤ n → c true = .term → w true = 0 := by
      intro h2 hct
      by_contra hw
      have := (hcc true).2 hw
      rw [hct] at this
      simp only [VCan] at this
      omega
    set P := (W.others.filter fun i => c i ≠ .term ∧ w i ≠ 0 ∧ W.known s (c i) = false).map c with hP
    have hPeq : P = if c true ≠ .term ∧ w true ≠ 0 ∧ W.known s (c true) = false then [c true] else [] := by
      rw [hP, h.others]
      split_ifs with h0 <;> simp [List.filter, h0]
    have hPt : ∀ t ∈ P ++ st, t ≠ .term := by
      intro t htt
      rcases List.mem_append.1 htt with h1 | h1
      · rw [hPeq] at h1
        split_ifs at h1 with h0
        · rw [List.mem_singleton.1 h1]; exact h0.1
        · cases h1
      · exact ht t h1
    have hPt' : ∀ t ∈ (Node.node n w c) :: (P ++ st), t ≠ .term := by
      intro t htt
      rcases List.mem_cons.1 htt with rfl | h1
      · simp
      · exact hPt t h1
    obtain ⟨k1, s1, r1, I1, kn1, m1, e1, n1⟩ := sub false (.node n w c :: (P ++ st)) s hI hPt' (by simp)
    have hrun1 : ∀ f, W.run (k1 + 1 + f) ⟨.node n w c, st, s⟩ = W.run f ⟨.term, .node n w c :: (P ++ st), s1⟩ := by
      intro f
      rw [show k1 + 1 + f = (k1 + f) + 1 by omega, Walk.run_node, h.first, r1]
    -- the node itself
    have fin : ∀ s2, I s2 → Done W s2 (.node n w c) → (∀ q, W.known s q = true → W.known s2 q = true) →
        (W.known s (.node n w c) = true → s2 = s) →
        (∀ q, W.known s2 q = true → W.known s q = true ∨ ∃ m < n, VCan (m + 1) q) →
        After W I n (.node n w c) s (if W.known s2 (.node n w c) = true then s2 else W.emit s2 (.node n w c)) := by
      intro s2 I2 d2 m2 e2 n2
      by_cases hk : W.known s (.node n w c) = true
      · have := e2 hk
        subst this
        rw [if_pos hk]
        exact ⟨I2, hk, fun _ h => h, fun _ => rfl, fun h => absurd hk (by simp [h]), fun _ h => .inl h⟩
      · have hk2 := hnode n2 (by simpa using hk)
        rw [if_neg (by simp [hk2])]
        obtain ⟨g1, g2⟩ := h.emit s2 n _ I2 hcan d2 hk2
        refine ⟨g1, (g2 _).2 (.inr rfl), fun q hq => (g2 q).2 (.inl (m2 q hq)), fun h => absurd h hk,
          fun _ => ⟨s2, rfl, I2, d2, hk2⟩, fun q hq => ?_⟩
        rcases (g2 q).1 hq with h3 | rfl
        · rcases n2 q h3 with h4 | ⟨m, hm, h4⟩
          · exact .inl h4
          · exact .inr ⟨m, hm.le, h4⟩
        · exact .inr ⟨n, le_rfl, hcan⟩
    have hdone : W.known s (.node n w c) = true → ∀ b, c b ≠ .term → W.known s (c b) = true := fun hk => h.done s _ hI hk
    by_cases hA : c true ≠ .term ∧ W.known s1 (c true) = false
    · -- the second successor has to be processed
      have hw : w true ≠ 0 := fun h0 => hA.1 ((hcc true).1 h0)
      have hks : W.known s (c true) = false := by
        by_contra hk
        have := m1 _ (by simpa using hk)
        rw [hA.2] at this
        exact absurd this (by simp)
      have hP1 : P = [c true] := by rw [hPeq, if_pos ⟨hA.1, hw, hks⟩]
      have ht' : ∀ t ∈ (Node.node n w c) :: st, t ≠ .term := by
        intro t htt
        rcases List.mem_cons.1 htt with rfl | h1
        · simp
        · exact ht t h1
      obtain ⟨k2, s2, r2, I2, kn2, m2, e2, n2⟩ := sub true (.node n w c :: st) s1 I1 ht' (by simp)
      have hchild : W.child s1 ([c true] ++ st) w c W.others = some true := by
        rw [h.others]
        simp [Walk.child, hw, hA.2]
      have d2 : Done W s2 (.node n w c) := by
        intro b hb
        cases b
        · exact m2 _ (kn1 hb)
        · exact kn2 hb
      refine ⟨k1 + 1 + (k2 + 1) + 1, _, fun f => ?_, fin s2 I2 d2 (fun q hq => m2 q (m1 q hq)) (fun hk => ?_) (fun q hq => ?_)⟩
      · rw [show k1 + 1 + (k2 + 1) + 1 + f = k1 + 1 + ((k2 + (f + 1)) + 1) by omega, hrun1, hP1]
        rw [Walk.run]
        simp only [hchild]
        simp only [List.singleton_append, List.headD_cons, List.tail_cons]
        rw [r2]
        exact h.pop I2 d2 ht (fun h1 h2 h3 => hz (hst h1 h2) h3) f
      · exfalso
        have := hdone hk true hA.1
        rw [hks] at this
        exact absurd this (by simp)
      · rcases n2 q hq with h3 | h3
        · exact n1 q h3
        · exact .inr h3
    · have hA' : c true ≠ .term → W.known s1 (c true) = true := by
        intro h1
        by_contra h2
        exact hA ⟨h1, by simpa using h2⟩
      have d1 : Done W s1 (.node n w c) := by
        intro b hb
        cases b
        · exact kn1 hb
        · exact hA' hb
      have hpop := fun f => h.pop (v := n) (w := w) (c := c) (st := P ++ st) I1 d1 hPt (fun h1 h2 h3 => by
        have := List.append_eq_nil_iff.1 h2
        exact hz (hst h1 this.2) h3) f
      have hfin := fin s1 I1 d1 m1 (fun hk => e1 fun h0 => hdone hk false h0) n1
      by_cases hp : c true ≠ .term ∧ w true ≠ 0 ∧ W.known s (c true) = false
      · -- a stale entry remains on the stack
        have hP1 : P = [c true] := by rw [hPeq, if_pos hp]
        have hk1 := hA' hp.1
        cases hct : c true with
        | term => exact absurd hct hp.1
        | node v' w' c' =>
          rw [hct] at hk1
          have hkf : W.known (if W.known s1 (.node n w c) = true then s1 else W.emit s1 (.node n w c)) (.node v' w' c') = true := by
            split_ifs with h0
            · exact hk1
            · exact ((h.emit s1 n _ I1 hcan d1 (by simpa using h0)).2 _).2 (.inl hk1)
          have hcan' := (hcc true).2 hp.2.1
          rw [hct] at hcan'
          refine ⟨k1 + 1 + 1 + 1, _, fun f => ?_, hfin⟩
          rw [show k1 + 1 + 1 + 1 + f = k1 + 1 + ((f + 1) + 1) by omega, hrun1, hpop, hP1, hct, List.singleton_append,
            h.pop hfin.inv (h.done _ _ hfin.inv hkf) ht ?_ f, if_pos hkf]
          intro h1 h2 h3
          have h4 := hst h1 h2
          by_contra hw
          have := (hcan'.2.2 true).2 hw
          rw [h3] at this
          simp only [VCan] at this
          have := hcan'.1
          omega
      · have hP1 : P = [] := by rw [hPeq, if_neg hp]
        refine ⟨k1 + 1 + 1, _, fun f => ?_, hfin⟩
        rw [show k1 + 1 + 1 + f = k1 + 1 + (f + 1) by omega, hrun1, hpop, hP1, List.nil_append]

/-! ### Reading what has been written -/

/-- The state of `deserialize` after some lines. -/
def readLines (make : ℕ → (ι → Edge ι) → Edge ι) (ls : List (Line ι)) : List (ℤ × Node ι) × Edge ι :=
  ls.foldl (fun st l => deNode make st.1 l) ([], (⟨.term, 0⟩ : Edge ι))

theorem readLines_append (make : ℕ → (ι → Edge ι) → Edge ι) (ls : List (Line ι)) (l : Line ι) :
    readLines make (ls ++ [l]) = deNode make (readLines make ls).1 l := by
  simp [readLines]

/-- The indices given refer to lines that are read as the nodes. -/
structure SerInv (make : ℕ → (ι → Edge ι) → Edge ι) (s : Ser ι) : Prop where
  term : find s.index .term = none
  index : ∀ p k, find s.index p = some k → 0 ≤ k ∧ k < s.index.length ∧ find (readLines make s.lines).1 k = some p
  done : ∀ v w c, (find s.index (.node v w c)).isSome → ∀ i, c i ≠ .term → (find s.index (c i)).isSome

/-- A line is read as the node it was written for. -/
theorem SerInv.line {make : ℕ → (ι → Edge ι) → Edge ι} {s : Ser ι} (h : SerInv make s) (binary : Bool) {v : ℕ} {w : ι → ℂ}
    {c : ι → Node ι} (hz : ∀ i, w i = 0 → c i = .term) (hm : make v (fun i => ⟨c i, w i⟩) = ⟨.node v w c, 1⟩)
    (hd : ∀ i, c i ≠ .term → (find s.index (c i)).isSome) (hn : find s.index (.node v w c) = none) :
    readLines make (s.lines ++ [lineOf binary ((.node v w c, (s.index.length : ℤ)) :: s.index) s.index.length v w c]) =
      (((s.index.length : ℤ), .node v w c) :: (readLines make s.lines).1, ⟨.node v w c, 1⟩) := by
  rw [readLines_append, deNode, if_neg (by simp [lineOf])]
  have : (fun i => match (lineOf binary ((.node v w c, (s.index.length : ℤ)) :: s.index) s.index.length v w c).edge i with
      | none => .zero
      | some (k, w) => if k = -2 then .zero else if k = -1 then ⟨.term, w⟩
        else ⟨(find (readLines make s.lines).1 k).getD .term, w⟩) = fun i => (⟨c i, w i⟩ : Edge ι) := by
    funext i
    simp only [lineOf]
    by_cases h0 : binary = false ∧ w i = 0
    · rw [if_pos h0, hz i h0.2, h0.2]
      rfl
    · rw [if_neg h0]
      by_cases hc : c i = .term
      · simp [hc]
      · have hne : Node.node v w c ≠ c i := by
          intro he
          have := hd i hc
          rw [← he, hn] at this
          exact absurd this (by simp)
        obtain ⟨k, hk⟩ := Option.isSome_iff_exists.1 (hd i hc)
        obtain ⟨h1, -, h3⟩ := h.index _ _ hk
        simp only [if_neg hc, find_cons_ne _ _ hne, hk, Option.getD_some]
        rw [if_neg (by omega), if_neg (by omega), h3]
        rfl
  simp only [this]
  simp only [lineOf, hm]

theorem SerInv.emit {make : ℕ → (ι → Edge ι) → Edge ι} {s : Ser ι} (h : SerInv make s) (binary : Bool) {v : ℕ} {w : ι → ℂ}
    {c : ι → Node ι} (hz : ∀ i, w i = 0 → c i = .term) (hm : make v (fun i => ⟨c i, w i⟩) = ⟨.node v w c, 1⟩)
    (hd : ∀ i, c i ≠ .term → (find s.index (c i)).isSome) (hn : find s.index (.node v w c) = none) :
    SerInv make (emitLine binary s (.node v w c)) := by
  have hr := h.line binary hz hm hd hn
  refine ⟨?_, fun p k hk => ?_, fun v' w' c' hk i hi => ?_⟩
  · simp only [emitLine]
    rw [find_cons_ne _ _ (by simp)]
    exact h.term
  · simp only [emitLine] at hk ⊢
    rw [hr]
    by_cases hp : Node.node v w c = p
    · subst hp
      rw [find_cons_self] at hk
      cases hk
      exact ⟨by omega, by simp, find_cons_self ..⟩
    · rw [find_cons_ne _ _ hp] at hk
      obtain ⟨h1, h2, h3⟩ := h.index p k hk
      refine ⟨h1, by simp; omega, ?_⟩
      rw [find_cons_ne _ _ (by omega)]
      exact h3
  · simp only [emitLine] at hk ⊢
    have key : ∀ q : Node ι, (find s.index q).isSome →
        (find ((Node.node v w c, (s.index.length : ℤ)) :: s.index) q).isSome := by
      intro q hq
      by_cases hp : Node.node v w c = q
      · subst hp; rw [find_cons_self]; rfl
      · rw [find_cons_ne _ _ hp]; exact hq
    by_cases hp : Node.node v w c = Node.node v' w' c'
    · cases hp
      exact key _ (hd i hi)
    · rw [find_cons_ne _ _ hp] at hk
      exact key _ (h.done _ _ _ hk i hi)

theorem serInv_empty (make : ℕ → (ι → Edge ι) → Edge ι) : SerInv make ⟨[], []⟩ :=
  ⟨rfl, fun _ _ h => by simp [find] at h, fun _ _ _ h => by simp [find] at h⟩

theorem serWalk_ok (binary : Bool) : (serWalk binary).Ok (SerInv makeV) where
  first := rfl
  others := rfl
  term s hs := by simp [serWalk, hs.term]
  done s p hs hk := by
    cases p with
    | term => trivial
    | node v w c => exact fun b hb => hs.done v w c hk b hb
  emit s n p hs hc hd hk := by
    obtain ⟨w, c, rfl, htop, hcc⟩ := hc.cases
    have hn : find s.index (.node n w c) = none := by simpa [serWalk] using hk
    refine ⟨hs.emit binary (fun i => (hcc i).1) (makeV_self htop fun b => (hcc b).1) (fun i hi => hd i hi) hn, fun q => ?_⟩
    simp only [serWalk, emitLine]
    by_cases hp : Node.node n w c = q
    · subst hp; simp [find_cons_self]
    · rw [find_cons_ne _ _ hp]
      simp [Ne.symm hp]

/-- Reading back a vector. -/
theorem serializeV_spec (binary : Bool) {n : ℕ} {e : VEdge} (he : VECan n e) (hp : e.p ≠ .term) :
    ∃ k file, (∀ f, serializeV binary (k + f) e = some file) ∧ deserialize makeV file = e := by
  have hw : e.w ≠ 0 := fun h => hp (he.1 h)
  have hc := he.2 hw
  cases n with
  | zero =>
    exfalso
    cases h : e.p with
    | term => exact hp h
    | node v w c => rw [h] at hc; exact absurd hc.1 (by omega)
  | succ n =>
    obtain ⟨k, s', h1, h2⟩ := (serWalk_ok binary).process e.p n [] ⟨[], []⟩ (serInv_empty _) hc (by simp) (by simp [serWalk])
    refine ⟨k + 1, (e.w, s'.lines), fun f => ?_, ?_⟩
    · rw [serializeV, if_neg hp, show k + 1 + f = k + (f + 1) by omega, h1]
      rfl
    · obtain ⟨s0, rfl, I0, d0, k0⟩ := h2.last (by simp [serWalk, find])
      obtain ⟨w, c, hpe, htop, hcc⟩ := hc.cases
      have hn : find s0.index (.node n w c) = none := by
        rw [hpe] at k0
        simpa [serWalk] using k0
      rw [hpe] at d0
      have := I0.line binary (fun i => (hcc i).1) (makeV_self htop fun b => (hcc b).1) (fun i hi => d0 i hi) hn
      unfold deserialize
      have hr : (readLines makeV ((serWalk binary).emit s0 e.p).lines).2 = ⟨e.p, 1⟩ := by
        rw [hpe]
        exact congrArg Prod.snd this
      unfold readLines at hr
      simp only [hr, one_mul]

/-! ### Matrices -/

/-- What `serializeMatrix` does to the state, for some nodes below level `n`. -/
structure StepM (n : ℕ) (st st' : List MNode × Ser RC) : Prop where
  inv : SerInv makeM st'.2
  mono : ∀ q, (find st.2.index q).isSome → (find st'.2.index q).isSome
  seen : ∀ q, q ∈ st.1 → q ∈ st'.1
  visited : ∀ q ∈ st'.1, q ∈ st.1 ∨ q = .term ∨ (find st'.2.index q).isSome
  new : ∀ q, (find st'.2.index q).isSome → (find st.2.index q).isSome ∨ q.var < n

theorem StepM.trans {n : ℕ} {st st' st'' : List MNode × Ser RC} (h : StepM n st st') (h' : StepM n st' st'') :
    StepM n st st'' where
  inv := h'.inv
  mono q hq := h'.mono q (h.mono q hq)
  seen q hq := h'.seen q (h.seen q hq)
  visited q hq := by
    rcases h'.visited q hq with h1 | h1 | h1
    · rcases h.visited q h1 with h2 | h2 | h2
      · exact .inl h2
      · exact .inr (.inl h2)
      · exact .inr (.inr (h'.mono q h2))
    · exact .inr (.inl h1)
    · exact .inr (.inr h1)
  new q hq := by
    rcases h'.new q hq with h1 | h1
    · exact h.new q h1
    · exact .inr h1

/-- Writing a matrix node writes everything below it first. -/
theorem serM_spec (binary : Bool) (p : MNode) : ∀ (n : ℕ) (st : List MNode × Ser RC), SerInv makeM st.2 → MCan n p →
    (∀ q ∈ st.1, q = .term ∨ (find st.2.index q).isSome ∨ p.var ≤ q.var) → (∀ q, (find st.2.index q).isSome → q ∈ st.1) →
    find st.2.index p = none →
    StepM n st (serM binary p st) ∧ (∀ q, (find (serM binary p st).2.index q).isSome → q ∈ (serM binary p st).1 ∨ q = p) ∧
      (p ≠ .term → (find (serM binary p st).2.index p).isSome ∧ (readLines makeM (serM binary p st).2.lines).2 = ⟨p, 1⟩) := by
  induction p with
  | term =>
    intro n st hI _ hv hk _
    exact ⟨⟨hI, fun _ h => h, fun _ h => h, fun _ h => .inl h, fun _ h => .inl h⟩, fun q hq => .inl (hk q hq), fun h => absurd rfl h⟩
  | node v w c ih =>
    intro n st hI hc hv hk hp
    obtain ⟨hvn, htop, hid, hcc⟩ := hc
    have hcan : ∀ i, MCan v (c i) := by
      intro i
      by_cases h0 : w i = 0
      · rw [(hcc i).1 h0]; trivial
      · exact (hcc i).2 h0
    -- the loop over the successors
    have loop : ∀ (L : List RC) (st : List MNode × Ser RC), SerInv makeM st.2 →
        (∀ q ∈ st.1, q = .term ∨ (find st.2.index q).isSome ∨ v ≤ q.var) → (∀ q, (find st.2.index q).isSome → q ∈ st.1) →
        ∀ st', st' = L.foldl (fun st i => if c i ∈ st.1 then st else serM binary (c i) (c i :: st.1, st.2)) st →
        StepM v st st' ∧ (∀ q, (find st'.2.index q).isSome → q ∈ st'.1) ∧
          ∀ i ∈ L, c i ≠ .term → (find st'.2.index (c i)).isSome := by
      intro L
      induction L with
      | nil =>
        rintro st hI hv hk st' rfl
        exact ⟨⟨hI, fun _ h => h, fun _ h => h, fun _ h => .inl h, fun _ h => .inl h⟩, hk, by simp⟩
      | cons i L ihL =>
        intro st hI hv hk st' he
        rw [List.foldl_cons] at he
        have key : ∀ st1, st1 = (if c i ∈ st.1 then st else serM binary (c i) (c i :: st.1, st.2)) →
            StepM v st st1 ∧ (∀ q, (find st1.2.index q).isSome → q ∈ st1.1) ∧ (c i ≠ .term → (find st1.2.index (c i)).isSome) := by
          intro st1 h1
          by_cases hin : c i ∈ st.1
          · rw [if_pos hin] at h1
            subst h1
            refine ⟨⟨hI, fun _ h => h, fun _ h => h, fun _ h => .inl h, fun _ h => .inl h⟩, hk, fun hne => ?_⟩
            rcases hv _ hin with h2 | h2 | h2
            · exact absurd h2 hne
            · exact h2
            · exact absurd ((hcan i).var_lt hne) (by omega)
          · rw [if_neg hin] at h1
            have hnk : find st.2.index (c i) = none := by
              by_contra hne
              exact hin (hk _ (Option.isSome_iff_ne_none.2 hne))
            by_cases ht : c i = .term
            · rw [ht] at h1
              simp only [serM] at h1
              subst h1
              refine ⟨⟨hI, fun _ h => h, fun _ h => List.mem_cons_of_mem _ h, fun q h => ?_, fun _ h => .inl h⟩,
                fun q h => List.mem_cons_of_mem _ (hk q h), fun h => absurd ht h⟩
              rcases List.mem_cons.1 h with rfl | h
              · exact .inr (.inl rfl)
              · exact .inl h
            · obtain ⟨g1, g2, g3⟩ := ih i v (c i :: st.1, st.2) hI (hcan i) (fun q hq => by
                rcases List.mem_cons.1 hq with rfl | hq
                · exact .inr (.inr le_rfl)
                · rcases hv q hq with h2 | h2 | h2
                  · exact .inl h2
                  · exact .inr (.inl h2)
                  · have := (hcan i).var_lt ht
                    exact .inr (.inr (by omega))) (fun q hq => List.mem_cons_of_mem _ (hk q hq)) hnk
              rw [← h1] at g1 g2 g3
              refine ⟨⟨g1.inv, g1.mono, fun q hq => g1.seen q (List.mem_cons_of_mem _ hq), fun q hq => ?_, g1.new⟩, fun q hq => ?_,
                fun h => (g3 h).1⟩
              · rcases g1.visited q hq with h2 | h2 | h2
                · rcases List.mem_cons.1 h2 with rfl | h2
                  · exact .inr (.inr (g3 ht).1)
                  · exact .inl h2
                · exact .inr (.inl h2)
                · exact .inr (.inr h2)
              · rcases g2 q hq with h2 | rfl
                · exact h2
                · exact g1.seen _ (List.mem_cons_self ..)
        obtain ⟨k1, k2, k3⟩ := key _ rfl
        obtain ⟨l1, l2, l3⟩ := ihL _ k1.inv (fun q hq => by
          rcases k1.visited q hq with h2 | h2 | h2
          · rcases hv q h2 with h3 | h3 | h3
            · exact .inl h3
            · exact .inr (.inl (k1.mono q h3))
            · exact .inr (.inr h3)
          · exact .inl h2
          · exact .inr (.inl h2)) k2 st' he
        refine ⟨k1.trans l1, l2, fun j hj hne => ?_⟩
        rcases List.mem_cons.1 hj with rfl | hj
        · exact l1.mono _ (k3 hne)
        · exact l3 j hj hne
    obtain ⟨l1, l2, l3⟩ := loop rcs st hI hv hk _ rfl
    have hrc : ∀ i : RC, i ∈ rcs := by
      rintro ⟨a, b⟩
      cases a <;> cases b <;> simp [rcs]
    rw [serM]
    set st1 := rcs.foldl (fun st i => if c i ∈ st.1 then st else serM binary (c i) (c i :: st.1, st.2)) st with hst1
    have hn1 : find st1.2.index (.node v w c) = none := by
      by_contra hne
      rcases l1.new _ (Option.isSome_iff_ne_none.2 hne) with h1 | h1
      · rw [hp] at h1; exact absurd h1 (by simp)
      · exact absurd h1 (by simp [Node.var])
    have hz : ∀ i, w i = 0 → c i = .term := fun i => (hcc i).1
    have hd : ∀ i, c i ≠ .term → (find st1.2.index (c i)).isSome := fun i => l3 i (hrc i)
    have he := l1.inv.emit binary hz (makeM_self htop hid hz) hd hn1
    have hl := l1.inv.line binary hz (makeM_self htop hid hz) hd hn1
    simp only [hn1, Option.isSome_none, Bool.false_eq_true, if_false, find_cons_self, Option.getD_some]
    simp only [emitLine] at he
    have hkn : ∀ q : MNode, (find ((Node.node v w c, (st1.2.index.length : ℤ)) :: st1.2.index) q).isSome ↔
        (find st1.2.index q).isSome ∨ q = .node v w c := by
      intro q
      by_cases hq : Node.node v w c = q
      · subst hq; simp [find_cons_self]
      · rw [find_cons_ne _ _ hq]; simp [Ne.symm hq]
    refine ⟨⟨he, fun q hq => (hkn q).2 (.inl (l1.mono q hq)), l1.seen, fun q hq => ?_, fun q hq => ?_⟩, fun q hq => ?_, fun _ =>
      ⟨rfl, congrArg Prod.snd hl⟩⟩
    · rcases l1.visited q hq with h1 | h1 | h1
      · exact .inl h1
      · exact .inr (.inl h1)
      · exact .inr (.inr ((hkn q).2 (.inl h1)))
    · rcases (hkn q).1 hq with h1 | rfl
      · rcases l1.new q h1 with h2 | h2
        · exact .inl h2
        · exact .inr (by omega)
      · exact .inr hvn
    · rcases (hkn q).1 hq with h1 | h1
      · exact .inl (l2 q h1)
      · exact .inr h1

/-- Reading back a matrix. -/
theorem serializeM_spec (binary : Bool) {n : ℕ} {e : MEdge} (he : MECan n e) (hp : e.p ≠ .term) :
    deserialize makeM (serializeM binary e) = e := by
  have hw : e.w ≠ 0 := fun h => hp (he.1 h)
  obtain ⟨-, -, h⟩ := serM_spec binary e.p n ([], ⟨[], []⟩) (serInv_empty _) (he.2 hw) (by simp) (by simp [find]) rfl
  have hr := (h hp).2
  unfold readLines at hr
  unfold deserialize serializeM
  simp only [hr, one_mul]

/-! ### Transfer -/

/-- The nodes mapped are mapped to themselves. -/
structure TraInv (s : Tra Bool) : Prop where
  term : find s.mapped .term = none
  self : ∀ p q, find s.mapped p = some q → q = p
  done : ∀ v w c, (find s.mapped (.node v w c)).isSome → ∀ i, c i ≠ .term → (find s.mapped (c i)).isSome

theorem TraInv.copy {s : Tra Bool} (h : TraInv s) {w : Bool → ℂ} {c : Bool → VNode}
    (hd : ∀ i, c i ≠ .term → (find s.mapped (c i)).isSome) : copyEdges w c [false, true] s.mapped =
      (s.mapped, fun i => ⟨c i, w i⟩) := by
  have key : ∀ i, (if c i = .term then (s.mapped, .term) else mappedAt s.mapped (c i)) = (s.mapped, c i) := by
    intro i
    split_ifs with h0
    · rw [h0]
    · obtain ⟨q, hq⟩ := Option.isSome_iff_exists.1 (hd i h0)
      rw [mappedAt, hq, h.self _ _ hq]
  simp only [copyEdges, key]
  congr 1
  funext j
  cases j <;> simp

theorem traWalk_ok : (traWalk makeVE false [true]).Ok TraInv where
  first := rfl
  others := rfl
  term s hs := by simp [traWalk, hs.term]
  done s p hs hk := by
    cases p with
    | term => trivial
    | node v w c => exact fun b hb => hs.done v w c hk b hb
  emit s n p hs hc hd hk := by
    obtain ⟨w, c, rfl, htop, hcc⟩ := hc.cases
    have hn : find s.mapped (.node n w c) = none := by simpa [traWalk] using hk
    have he : (traWalk makeVE false [true]).emit s (.node n w c) = ⟨(.node n w c, .node n w c) :: s.mapped, ⟨.node n w c, 1⟩⟩ := by
      simp only [traWalk, emitCopy, hs.copy (w := w) (fun i hi => hd i hi), makeVE_self htop fun b => (hcc b).1]
    have hkn : ∀ q : VNode, (find ((Node.node n w c, Node.node n w c) :: s.mapped) q).isSome ↔
        (find s.mapped q).isSome ∨ q = .node n w c := by
      intro q
      by_cases hq : Node.node n w c = q
      · subst hq; simp [find_cons_self]
      · rw [find_cons_ne _ _ hq]; simp [Ne.symm hq]
    rw [he]
    refine ⟨⟨?_, fun p q hq => ?_, fun v' w' c' h1 i hi => ?_⟩, hkn⟩
    · simp only
      rw [find_cons_ne _ _ (by simp)]
      exact hs.term
    · simp only at hq
      by_cases hp : Node.node n w c = p
      · subst hp
        rw [find_cons_self] at hq
        exact (Option.some.inj hq).symm
      · rw [find_cons_ne _ _ hp] at hq
        exact hs.self p q hq
    · simp only at h1 ⊢
      rcases (hkn _).1 h1 with h2 | h2
      · exact (hkn _).2 (.inl (hs.done v' w' c' h2 i hi))
      · cases h2
        exact (hkn _).2 (.inl (hd i hi))

/-- Transferring a vector of at least three qubits. -/
theorem transferV_spec {n : ℕ} {e : VEdge} (he : VECan n e) (hn : 3 ≤ n) : ∃ k, ∀ f, transferV (k + f) e = some e := by
  by_cases hp : e.p = .term
  · exact ⟨0, fun f => by rw [transferV, transfer, if_pos hp]⟩
  have hw : e.w ≠ 0 := fun h => hp (he.1 h)
  have hc := he.2 hw
  obtain ⟨n, rfl⟩ : ∃ m, n = m + 1 := ⟨n - 1, by omega⟩
  obtain ⟨k, s', h1, h2⟩ := traWalk_ok.process e.p n [] ⟨[], .zero⟩
    ⟨rfl, fun _ _ h => by simp [find] at h, fun _ _ _ h => by simp [find] at h⟩ hc (by simp) (fun _ _ => by omega)
  refine ⟨k + 1, fun f => ?_⟩
  rw [transferV, transfer, if_neg hp, show k + 1 + f = k + (f + 1) by omega, h1]
  obtain ⟨s0, rfl, I0, d0, -⟩ := h2.last (by simp [traWalk, find])
  obtain ⟨w, c, hpe, htop, hcc⟩ := hc.cases
  rw [hpe] at d0
  have hr : ((traWalk makeVE false [true]).emit s0 e.p).root = ⟨e.p, 1⟩ := by
    rw [hpe]
    simp only [traWalk, emitCopy, I0.copy (w := w) (fun i hi => d0 i hi), makeVE_self htop fun b => (hcc b).1]
  simp only [Walk.run, Option.map_some, hr, mul_one]

end MQT.DD

/-
Operations on different qubits can be exchanged: the meaning of a circuit up to the order in which
outcomes are drawn.
-/
import Verif.Opt.ReorderProof

set_option autoImplicit false

namespace MQT.Opt.Reorder

open MQT.IR
open Function (update)

/-! ### The order of the outcomes -/

/-- The second circuit does what the first one does when the outcomes are drawn in another order. -/
def Sim (A B : List (Op ℝ)) : Prop := ∃ σ : Equiv.Perm ℕ, ∀ c : Cfg, run A c = run B { c with orc := c.orc ∘ σ }

theorem Sim.refl (A : List (Op ℝ)) : Sim A A := ⟨1, fun _ => rfl⟩

theorem Sim.of_eq {A B : List (Op ℝ)} (h : run A = run B) : Sim A B := ⟨1, fun c => congrFun h c⟩

theorem Sim.trans {A B C : List (Op ℝ)} : Sim A B → Sim B C → Sim A C := by
  rintro ⟨σ, h⟩ ⟨τ, h'⟩
  exact ⟨σ * τ, fun c => by rw [h, h']; rfl⟩

theorem Sim.symm {A B : List (Op ℝ)} : Sim A B → Sim B A := by
  rintro ⟨σ, h⟩
  refine ⟨σ⁻¹, fun c => ?_⟩
  rw [h]
  congr 1
  simp only [Function.comp_assoc]
  have : (⇑σ⁻¹ ∘ ⇑σ) = id := by funext x; simp
  rw [this]
  rfl

theorem Sim.append {A B : List (Op ℝ)} (h : Sim A B) (C : List (Op ℝ)) : Sim (A ++ C) (B ++ C) := by
  obtain ⟨σ, h⟩ := h
  exact ⟨σ, fun c => by rw [run_append, run_append, h]⟩

/-- Leave position 0 alone. -/
def lift (σ : Equiv.Perm ℕ) : Equiv.Perm ℕ where
  toFun n := match n with
    | 0 => 0
    | n + 1 => σ n + 1
  invFun n := match n with
    | 0 => 0
    | n + 1 => σ.symm n + 1
  left_inv n := by cases n <;> simp
  right_inv n := by cases n <;> simp

/-! ### Elementary operations -/

/-- An elementary operation draws at most one outcome. -/
structure Act where
  d : Bool
  g : (ℕ → Bool) → Bool → State → State
  h : (ℕ → Bool) → Bool → ℕ → Bool

def Act.bit (a : Act) (o : ℕ → Bool) : Bool := if a.d then o 0 else false
def Act.rest (a : Act) (o : ℕ → Bool) : ℕ → Bool := if a.d then fun n => o (n + 1) else o
def Act.run (a : Act) (c : Cfg) : Cfg := ⟨a.g c.mem (a.bit c.orc) c.st, a.h c.mem (a.bit c.orc), a.rest c.orc⟩

/-- The operation is elementary. -/
def Does (x : Op ℝ) (a : Act) : Prop := ∀ c, exec x c = some (a.run c)

theorem Sim.cons {x : Op ℝ} {a : Act} (hx : Does x a) {A B : List (Op ℝ)} (h : Sim A B) : Sim (x :: A) (x :: B) := by
  obtain ⟨σ, h⟩ := h
  cases hd : a.d with
  | false =>
    refine ⟨σ, fun c => ?_⟩
    rw [run_cons, run_cons, hx, hx, Option.bind_some, Option.bind_some, h]
    congr 1
    simp [Act.run, Act.bit, Act.rest, hd]
  | true =>
    refine ⟨lift σ, fun c => ?_⟩
    rw [run_cons, run_cons, hx, hx, Option.bind_some, Option.bind_some, h]
    congr 1
    simp only [Act.run, Act.bit, Act.rest, hd, if_true]
    rfl

/-- The actions can be exchanged. -/
def Commute (a b : Act) : Prop := ∀ m u v ψ, b.g (a.h m u) v (a.g m u ψ) = a.g (b.h m v) u (b.g m v ψ) ∧ b.h (a.h m u) v = a.h (b.h m v) u

theorem Commute.symm {a b : Act} (h : Commute a b) : Commute b a := fun m u v ψ => ⟨(h m v u ψ).1.symm, (h m v u ψ).2.symm⟩

theorem sim_swap {x y : Op ℝ} {a b : Act} (hx : Does x a) (hy : Does y b) (h : Commute a b) : Sim [x, y] [y, x] := by
  obtain ⟨σ, hσ⟩ : ∃ σ : Equiv.Perm ℕ, ∀ o : ℕ → Bool, b.rest (a.rest o) = a.rest (b.rest (o ∘ σ)) ∧
      a.bit o = a.bit (b.rest (o ∘ σ)) ∧ b.bit (a.rest o) = b.bit (o ∘ σ) := by
    cases ha : a.d <;> cases hb : b.d
    · exact ⟨1, fun o => by simp [Act.rest, Act.bit, ha, hb]⟩
    · exact ⟨1, fun o => by simp [Act.rest, Act.bit, ha, hb]⟩
    · exact ⟨1, fun o => by simp [Act.rest, Act.bit, ha, hb]⟩
    · refine ⟨Equiv.swap 0 1, fun o => ?_⟩
      simp only [Act.rest, Act.bit, ha, hb, if_true, Function.comp_apply, Equiv.swap_apply_left, Equiv.swap_apply_right, and_true, zero_add]
      funext n
      rw [Equiv.swap_apply_of_ne_of_ne (by omega) (by omega)]
  refine ⟨σ, fun c => ?_⟩
  rw [run_cons, run_cons, hx, hy, Option.bind_some, Option.bind_some, run_singleton, run_singleton, hx, hy]
  congr 1
  obtain ⟨r1, r2, r3⟩ := hσ c.orc
  simp only [Act.run]
  rw [r1, ← r2, r3]
  obtain ⟨k1, k2⟩ := h c.mem (a.bit c.orc) (b.bit (c.orc ∘ σ)) c.st
  rw [k1, k2]

/-! ### Operators on some of the qubits -/

/-- Built from gates and one-qubit operators on these qubits. -/
inductive Loc (Q : Finset ℕ) : (State → State) → Prop
  | id : Loc Q fun ψ => ψ
  | gate {o : StdOp ℝ} {f : State → State} (h : o.denote = some f) (hQ : o.used ⊆ Q) : Loc Q f
  | one (M : Mat1) {q : ℕ} (hq : q ∈ Q) : Loc Q (app1 M q)
  | comp {f g : State → State} (hf : Loc Q f) (hg : Loc Q g) : Loc Q fun ψ => f (g ψ)

theorem Loc.comm {Q R : Finset ℕ} (hd : Disjoint Q R) {f g : State → State} (hf : Loc Q f) (hg : Loc R g) (ψ : State) : f (g ψ) = g (f ψ) := by
  induction hf generalizing ψ with
  | id => rfl
  | comp _ _ ih ih' => simp only; rw [ih', ih]
  | gate h hQ =>
    induction hg generalizing ψ with
    | id => rfl
    | comp _ _ ih ih' => simp only; rw [ih, ih']
    | gate h' hR =>
      refine StdOp.comm_of_disjoint h h' (fun q hq hu => ?_) (fun q hq hu => ?_) ψ
      · exact Finset.disjoint_left.1 hd (hQ (StdOp.mem_used.2 (Or.inl hq))) (hR hu)
      · exact Finset.disjoint_left.1 hd (hQ hu) (hR (StdOp.mem_used.2 (Or.inl hq)))
    | one M hq => exact denote_comm_app1 h M (fun hu => Finset.disjoint_left.1 hd (hQ hu) hq) ψ
  | one M hq =>
    induction hg generalizing ψ with
    | id => rfl
    | comp _ _ ih ih' => simp only; rw [ih, ih']
    | gate h' hR => exact (denote_comm_app1 h' M (fun hu => Finset.disjoint_left.1 hd hq (hR hu)) ψ).symm
    | one N hr => exact app1_app1_comm M N (by rintro rfl; exact Finset.disjoint_left.1 hd hq hr) ψ

/-! ### Classical bits -/

variable {P : Type}

mutual
/-- The bits that measurements write. -/
def writes : Op P → Finset ℕ
  | .std _ => ∅
  | .compound l _ => writesL l
  | .measure _ cs => cs.toFinset
  | .reset _ => ∅
  | .classic _ o => writes o
def writesL : List (Op P) → Finset ℕ
  | [] => ∅
  | o :: l => writes o ∪ writesL l
end

mutual
/-- No condition inside depends on these bits. -/
def Blind (W : Finset ℕ) : Op P → Prop
  | .std _ => True
  | .compound l _ => BlindL W l
  | .measure _ _ => True
  | .reset _ => True
  | .classic p o => (∀ m, ∀ b ∈ W, ∀ v, p (update m b v) = p m) ∧ Blind W o
def BlindL (W : Finset ℕ) : List (Op P) → Prop
  | [] => True
  | o :: l => Blind W o ∧ BlindL W l
end

mutual
theorem blind_mono {W V : Finset ℕ} (h : W ⊆ V) (o : Op P) (hb : Blind V o) : Blind W o := by
  match o with
  | .std _ => rw [Blind]; trivial
  | .compound l _ => rw [Blind] at hb ⊢; exact blindL_mono h l hb
  | .measure _ _ => rw [Blind]; trivial
  | .reset _ => rw [Blind]; trivial
  | .classic p o => rw [Blind] at hb ⊢; exact ⟨fun m b hbW => hb.1 m b (h hbW), blind_mono h o hb.2⟩
theorem blindL_mono {W V : Finset ℕ} (h : W ⊆ V) (l : List (Op P)) (hb : BlindL V l) : BlindL W l := by
  match l with
  | [] => rw [BlindL]; trivial
  | o :: l => rw [BlindL] at hb ⊢; exact ⟨blind_mono h o hb.1, blindL_mono h l hb.2⟩
end

/-- The operations have no bit in common that one of them writes. -/
def NoClash (a b : Op P) : Prop := Disjoint (writes a) (writes b) ∧ Blind (writes a) b ∧ Blind (writes b) a

theorem NoClash.symm {a b : Op P} (h : NoClash a b) : NoClash b a := ⟨h.1.symm, h.2.2, h.2.1⟩

mutual
/-- Only gates are classically controlled. -/
def simple : Op P → Bool
  | .std _ => true
  | .compound l _ => simpleL l
  | .measure _ _ => true
  | .reset _ => true
  | .classic _ (.std _) => true
  | .classic _ _ => false
def simpleL : List (Op P) → Bool
  | [] => true
  | o :: l => simple o && simpleL l
end

mutual
theorem simple_plain (o : Op P) (h : simple o = true) : o.plain = true := by
  match o with
  | .std _ => rfl
  | .compound l _ => rw [simple] at h; rw [Op.plain]; exact simpleL_plain l h
  | .measure _ _ => rfl
  | .reset _ => rfl
  | .classic _ (.std _) => rfl
  | .classic _ (.compound _ _) | .classic _ (.measure _ _) | .classic _ (.reset _) | .classic _ (.classic _ _) => cases h
theorem simpleL_plain (l : List (Op P)) (h : simpleL l = true) : Op.plainL l = true := by
  match l with
  | [] => rfl
  | o :: l =>
    rw [simpleL, Bool.and_eq_true] at h
    rw [Op.plainL, simple_plain o h.1, simpleL_plain l h.2]
    rfl
end

mutual
/-- The elementary operations of an operation. -/
def atoms : Op P → List (Op P)
  | .std s => [.std s]
  | .compound l _ => atomsL l
  | .measure qs cs => (qs.zip cs).map fun p => .measure [p.1] [p.2]
  | .reset qs => qs.map fun q => .reset [q]
  | .classic p o => [.classic p o]
def atomsL : List (Op P) → List (Op P)
  | [] => []
  | o :: l => atoms o ++ atomsL l
end

mutual
theorem run_atoms (o : Op ℝ) : run (atoms o) = exec o := by
  match o with
  | .std s => rw [atoms, run_singleton]
  | .compound l b => rw [atoms, run_compound]; exact run_atomsL l
  | .measure qs cs =>
    funext c
    rw [atoms, exec]
    generalize qs.zip cs = l
    induction l generalizing c with
    | nil => rw [List.map_nil, run_nil]; rfl
    | cons p l ih => rw [List.map_cons, run_cons, exec, List.foldl_cons, ← ih]; rfl
  | .reset qs =>
    funext c
    rw [atoms, exec]
    induction qs generalizing c with
    | nil => rw [List.map_nil, run_nil]; rfl
    | cons p l ih => rw [List.map_cons, run_cons, exec]; exact ih (reset1 p c)
  | .classic p o => rw [atoms, run_singleton]
theorem run_atomsL (l : List (Op ℝ)) : run (atomsL l) = run l := by
  match l with
  | [] => rfl
  | o :: l =>
    funext c
    rw [atomsL, run_append, run_atoms o, run_atomsL l, run_cons]
end

mutual
theorem atoms_spec (o : Op ℝ) (hs : simple o = true) (hv : o.Valid) : ∀ x ∈ atoms o,
    x.acts ⊆ o.acts ∧ writes x ⊆ writes o ∧ (∀ W, Blind W o → Blind W x) ∧
      ((∃ s f, x = .std s ∧ s.denote = some f) ∨ (∃ q b, x = .measure [q] [b]) ∨ (∃ q, x = .reset [q]) ∨
        ∃ p s f, x = .classic p (.std s) ∧ s.denote = some f) := by
  match o with
  | .std s =>
    intro x hx
    rw [atoms, List.mem_singleton] at hx
    subst hx
    obtain ⟨-, f, hf⟩ := hv
    exact ⟨Finset.Subset.refl _, Finset.Subset.refl _, fun _ h => h, Or.inl ⟨s, f, rfl, hf⟩⟩
  | .compound l _ =>
    intro x hx
    rw [atoms] at hx
    rw [simple] at hs
    rw [Op.Valid] at hv
    obtain ⟨h1, h2, h3, h4⟩ := atomsL_spec l hs hv x hx
    exact ⟨by rw [Op.acts]; exact h1, by rw [writes]; exact h2, fun W h => h3 W (by rwa [Blind] at h), h4⟩
  | .measure qs cs =>
    intro x hx
    rw [atoms, List.mem_map] at hx
    obtain ⟨p, hp, rfl⟩ := hx
    obtain ⟨h1, h2⟩ := List.of_mem_zip hp
    refine ⟨?_, ?_, fun _ _ => by rw [Blind]; trivial, Or.inr (Or.inl ⟨p.1, p.2, rfl⟩)⟩
    · intro q hq
      simp only [Op.acts, List.toFinset_cons, List.toFinset_nil, insert_empty_eq, Finset.mem_singleton] at hq
      subst hq
      exact List.mem_toFinset.2 h1
    · intro q hq
      simp only [writes, List.toFinset_cons, List.toFinset_nil, insert_empty_eq, Finset.mem_singleton] at hq
      subst hq
      exact List.mem_toFinset.2 h2
  | .reset qs =>
    intro x hx
    rw [atoms, List.mem_map] at hx
    obtain ⟨p, hp, rfl⟩ := hx
    refine ⟨?_, by simp [writes], fun _ _ => by rw [Blind]; trivial, Or.inr (Or.inr (Or.inl ⟨p, rfl⟩))⟩
    intro q hq
    simp only [Op.acts, List.toFinset_cons, List.toFinset_nil, insert_empty_eq, Finset.mem_singleton] at hq
    subst hq
    exact List.mem_toFinset.2 hp
  | .classic p (.std s) =>
    intro x hx
    rw [atoms, List.mem_singleton] at hx
    subst hx
    rw [Op.Valid, Op.Valid] at hv
    obtain ⟨-, f, hf⟩ := hv
    exact ⟨Finset.Subset.refl _, Finset.Subset.refl _, fun _ h => h, Or.inr (Or.inr (Or.inr ⟨p, s, f, rfl, hf⟩))⟩
  | .classic _ (.compound _ _) | .classic _ (.measure _ _) | .classic _ (.reset _) | .classic _ (.classic _ _) => cases hs
theorem atomsL_spec (l : List (Op ℝ)) (hs : simpleL l = true) (hv : Op.ValidL l) : ∀ x ∈ atomsL l,
    x.acts ⊆ Op.actsL l ∧ writes x ⊆ writesL l ∧ (∀ W, BlindL W l → Blind W x) ∧
      ((∃ s f, x = .std s ∧ s.denote = some f) ∨ (∃ q b, x = .measure [q] [b]) ∨ (∃ q, x = .reset [q]) ∨
        ∃ p s f, x = .classic p (.std s) ∧ s.denote = some f) := by
  match l with
  | [] => intro x hx; cases hx
  | o :: l =>
    intro x hx
    rw [simpleL, Bool.and_eq_true] at hs
    rw [Op.ValidL] at hv
    rw [atomsL, List.mem_append] at hx
    rcases hx with hx | hx
    · obtain ⟨h1, h2, h3, h4⟩ := atoms_spec o hs.1 hv.1 x hx
      exact ⟨h1.trans (by rw [Op.actsL]; exact Finset.subset_union_left), h2.trans (by rw [writesL]; exact Finset.subset_union_left),
        fun W h => h3 W (by rw [BlindL] at h; exact h.1), h4⟩
    · obtain ⟨h1, h2, h3, h4⟩ := atomsL_spec l hs.2 hv.2 x hx
      exact ⟨h1.trans (by rw [Op.actsL]; exact Finset.subset_union_right), h2.trans (by rw [writesL]; exact Finset.subset_union_right),
        fun W h => h3 W (by rw [BlindL] at h; exact h.2), h4⟩
end

/-- What an action may touch. -/
structure Act.Bounded (a : Act) (Q W : Finset ℕ) (R : Finset ℕ → Prop) : Prop where
  loc : ∀ m u, Loc Q (a.g m u)
  write : ∃ t : Bool → ℕ → Option Bool, (∀ u b, b ∉ W → t u b = none) ∧ ∀ m u b, a.h m u b = (t u b).getD (m b)
  blind : ∀ V, R V → ∀ m m' : ℕ → Bool, (∀ b, b ∉ V → m b = m' b) → ∀ u, a.g m u = a.g m' u

theorem Act.Bounded.keep {a : Act} {Q W : Finset ℕ} {R : Finset ℕ → Prop} (h : a.Bounded Q W R) (m : ℕ → Bool) (u : Bool) (b : ℕ)
    (hb : b ∉ W) : a.h m u b = m b := by
  obtain ⟨t, h1, h2⟩ := h.write
  rw [h2, h1 u b hb]
  rfl

theorem Act.Bounded.commute {a b : Act} {Q W Q' W' : Finset ℕ} {R R' : Finset ℕ → Prop} (ha : a.Bounded Q W R) (hb : b.Bounded Q' W' R')
    (hQ : Disjoint Q Q') (hW : Disjoint W W') (hR : R W') (hR' : R' W) : Commute a b := by
  intro m u v ψ
  constructor
  · rw [hb.blind W hR' (a.h m u) m (fun x hx => ha.keep m u x hx) v, ha.blind W' hR (b.h m v) m (fun x hx => hb.keep m v x hx) u]
    exact (Loc.comm hQ (ha.loc m u) (hb.loc m v) ψ).symm
  · funext x
    obtain ⟨t, t1, t2⟩ := ha.write
    obtain ⟨s, s1, s2⟩ := hb.write
    rw [s2, t2, t2, s2]
    by_cases hx : x ∈ W
    · rw [s1 v x (Finset.disjoint_left.1 hW hx)]; rfl
    · rw [t1 u x hx]; rfl

/-- A condition that does not depend on single bits does not depend on all of them together. -/
theorem blind_eq {p : (ℕ → Bool) → Bool} {V : Finset ℕ} (h : ∀ m, ∀ b ∈ V, ∀ v, p (update m b v) = p m) {m m' : ℕ → Bool}
    (hm : ∀ b, b ∉ V → m b = m' b) : p m = p m' := by
  induction V using Finset.induction_on generalizing m with
  | empty =>
    have : m = m' := funext fun b => hm b (Finset.notMem_empty b)
    rw [this]
  | insert a V ha ih =>
    rw [← h m a (by simp) (m' a)]
    refine ih (fun m b hb v => h m b (by simp [hb]) v) fun b hb => ?_
    by_cases e : b = a
    · subst e; simp
    · rw [Function.update_of_ne e]
      exact hm b (by simp [hb, e])

theorem exists_act {o x : Op ℝ} (hs : simple o = true) (hv : o.Valid) (hx : x ∈ atoms o) :
    ∃ a, Does x a ∧ a.Bounded x.acts (writes x) fun V => Blind V x := by
  rcases (atoms_spec o hs hv x hx).2.2.2 with ⟨s, f, rfl, hf⟩ | ⟨q, b, rfl⟩ | ⟨q, rfl⟩ | ⟨p, s, f, rfl, hf⟩
  · refine ⟨⟨false, fun _ _ => f, fun m _ => m⟩, fun c => by rw [exec, hf]; rfl, ?_, ⟨fun _ _ => none, fun _ _ _ => rfl, fun _ _ _ => rfl⟩, fun _ _ _ _ _ _ => rfl⟩
    exact fun _ _ => .gate hf (by rw [Op.acts])
  · refine ⟨⟨true, fun _ u => app1 (projM u) q, fun m u => update m b u⟩, fun c => by rw [exec]; rfl, ?_,
      ⟨fun u b' => if b' = b then some u else none, fun u b' h => ?_, fun m u b' => ?_⟩, fun _ _ _ _ _ _ => rfl⟩
    · exact fun _ u => .one _ (by simp [Op.acts])
    · have hb : b' ≠ b := by
        rintro rfl
        exact h (by simp [writes])
      simp [hb]
    · by_cases hb : b' = b
      · subst hb; simp
      · simp [hb]
  · refine ⟨⟨true, fun _ u ψ => if u then app1 flipM q (app1 (projM true) q ψ) else app1 (projM false) q ψ, fun m _ => m⟩,
      fun c => by rw [exec]; rfl, fun _ u => ?_, ⟨fun _ _ => none, fun _ _ _ => rfl, fun _ _ _ => rfl⟩, fun _ _ _ _ _ _ => rfl⟩
    have hq : q ∈ (Op.reset [q] : Op ℝ).acts := by simp [Op.acts]
    cases u
    · exact .one _ hq
    · exact Loc.comp (f := app1 flipM q) (g := app1 (projM true) q) (.one _ hq) (.one _ hq)
  · refine ⟨⟨false, fun m _ ψ => if p m then f ψ else ψ, fun m _ => m⟩, fun c => ?_, fun m _ => ?_, ⟨fun _ _ => none, fun _ _ _ => rfl, fun _ _ _ => rfl⟩, ?_⟩
    · rw [exec, exec, hf]
      by_cases hp : p c.mem = true
      · simp [Act.run, Act.rest, hp, Cfg.mapSt]
      · simp [Act.run, Act.rest, hp]
    · by_cases hp : p m = true
      · simp only [hp, if_true]
        exact .gate hf (by rw [Op.acts, Op.acts])
      · simp only [hp, if_false, Bool.false_eq_true]
        exact .id
    · intro V hV m m' hm u
      rw [Blind] at hV
      have : p m = p m' := blind_eq hV.1 hm
      simp only [this]

/-! ### Lists -/

/-- Elementary operations. -/
def Elem (A : List (Op ℝ)) : Prop := ∀ x ∈ A, ∃ a, Does x a

theorem Sim.pre {B C : List (Op ℝ)} (h : Sim B C) : ∀ A : List (Op ℝ), Elem A → Sim (A ++ B) (A ++ C)
  | [], _ => h
  | x :: A, hA => by
    obtain ⟨a, ha⟩ := hA x (by simp)
    exact Sim.cons ha (Sim.pre h A fun y hy => hA y (by simp [hy]))

/-- The operations of the lists can be exchanged. -/
def Indep (A B : List (Op ℝ)) : Prop := ∀ x ∈ A, ∀ y ∈ B, ∃ a b, Does x a ∧ Does y b ∧ Commute a b

theorem sim_past {x : Op ℝ} : ∀ B : List (Op ℝ), Elem B → Indep [x] B → Sim (x :: B) (B ++ [x])
  | [], _, _ => Sim.refl _
  | y :: B, hB, h => by
    obtain ⟨a, b, h1, h2, h3⟩ := h x (by simp) y (by simp)
    have e := (sim_swap h1 h2 h3).append B
    exact e.trans (Sim.cons h2 (sim_past B (fun z hz => hB z (by simp [hz])) fun u hu z hz => h u hu z (by simp [hz])))

theorem sim_exchange : ∀ A B : List (Op ℝ), Elem A → Elem B → Indep A B → Sim (A ++ B) (B ++ A)
  | [], B, _, _, _ => by rw [List.append_nil]; exact Sim.refl _
  | x :: A, B, hA, hB, h => by
    obtain ⟨a, ha⟩ := hA x (by simp)
    have e1 := Sim.cons ha (sim_exchange A B (fun y hy => hA y (by simp [hy])) hB fun u hu => h u (by simp [hu]))
    have e2 := (sim_past B hB fun u hu => by rw [List.mem_singleton.1 hu]; exact h x (by simp)).append A
    rw [List.append_assoc] at e2
    exact e1.trans e2

/-! ### Sorting -/

theorem sim_insert (at' : ℕ → List (Op ℝ)) (hE : ∀ i, Elem (at' i)) (i : ℕ) : ∀ l : List ℕ, (∀ j ∈ l, Indep (at' i) (at' j) ∨ i < j) →
    Sim ((i :: l).flatMap at') ((l.orderedInsert (· ≤ ·) i).flatMap at')
  | [], _ => Sim.refl _
  | j :: l, h => by
    rw [List.orderedInsert]
    by_cases hij : i ≤ j
    · rw [if_pos hij]; exact Sim.refl _
    · rw [if_neg hij]
      have hI : Indep (at' i) (at' j) := (h j (by simp)).resolve_right (by omega)
      have ih := sim_insert at' hE i l fun k hk => h k (by simp [hk])
      simp only [List.flatMap_cons] at ih ⊢
      refine Sim.trans ?_ (Sim.pre ih _ (hE j))
      rw [← List.append_assoc, ← List.append_assoc]
      exact (sim_exchange _ _ (hE i) (hE j) hI).append _

theorem sim_sort (at' : ℕ → List (Op ℝ)) (hE : ∀ i, Elem (at' i)) : ∀ l : List ℕ, (l.Pairwise fun i j => Indep (at' i) (at' j) ∨ i < j) →
    Sim (l.flatMap at') ((l.insertionSort (· ≤ ·)).flatMap at')
  | [], _ => Sim.refl _
  | i :: l, h => by
    rw [List.pairwise_cons] at h
    rw [List.insertionSort_cons]
    refine Sim.trans ?_ (sim_insert at' hE i _ fun j hj => h.1 j ((List.mem_insertionSort _).1 hj))
    rw [List.flatMap_cons, List.flatMap_cons]
    exact Sim.pre (sim_sort at' hE l h.2) _ (hE i)

/-- The elementary operations at a position. -/
def atomsAt (ops : List (Op P)) (i : ℕ) : List (Op P) :=
  match ops[i]? with
  | none => []
  | some o => atoms o

theorem run_pick (ops : List (Op ℝ)) (l : List ℕ) : run (pick ops l) = run (l.flatMap (atomsAt ops)) := by
  induction l with
  | nil => rfl
  | cons i l ih =>
    have e : pick ops (i :: l) = (match ops[i]? with | none => [] | some o => [o]) ++ pick ops l := by
      rw [pick, List.filterMap_cons]
      cases h : ops[i]? <;> rfl
    rw [e, List.flatMap_cons]
    refine run_append_congr ?_ ih
    rw [atomsAt]
    cases h : ops[i]? with
    | none => rfl
    | some o => simp only; rw [run_singleton, run_atoms]

theorem pick_range (ops : List (Op P)) : pick ops (List.range ops.length) = ops := by
  rw [pick]
  apply List.ext_getElem?
  intro k
  have : (List.range ops.length).filterMap (fun i => ops[i]?) = ops := by
    induction ops using List.reverseRecOn with
    | nil => rfl
    | append_singleton l a ih =>
      rw [List.length_append, List.length_singleton, List.range_succ, List.filterMap_append]
      have : (List.range l.length).filterMap (fun i => (l ++ [a])[i]?) = (List.range l.length).filterMap fun i => l[i]? := by
        refine List.filterMap_congr fun i hi => ?_
        rw [List.getElem?_append_left (List.mem_range.1 hi)]
      rw [this, ih]
      simp
  rw [this]

/-- Operations on different qubits and bits can be exchanged. -/
theorem indep_of {a b : Op ℝ} (sa : simple a = true) (sb : simple b = true) (va : a.Valid) (vb : b.Valid) (hd : Disjoint a.acts b.acts)
    (hc : NoClash a b) : Indep (atoms a) (atoms b) := by
  intro x hx y hy
  obtain ⟨α, hα, bα⟩ := exists_act sa va hx
  obtain ⟨β, hβ, bβ⟩ := exists_act sb vb hy
  obtain ⟨x1, x2, x3, -⟩ := atoms_spec a sa va x hx
  obtain ⟨y1, y2, y3, -⟩ := atoms_spec b sb vb y hy
  refine ⟨α, β, hα, hβ, bα.commute bβ (Finset.disjoint_of_subset_left x1 (Finset.disjoint_of_subset_right y1 hd))
    (Finset.disjoint_of_subset_left x2 (Finset.disjoint_of_subset_right y2 hc.1)) ?_ ?_⟩
  · exact blind_mono y2 x (x3 _ hc.2.2)
  · exact blind_mono x2 y (y3 _ hc.2.1)

/-- Any order that keeps dependent operations in theirs has the meaning of the circuit. -/
theorem sim_pick {ops : List (Op ℝ)} (hs : ∀ o ∈ ops, simple o = true) (hv : ∀ o ∈ ops, o.Valid)
    (hc : ops.Pairwise fun a b => Disjoint a.acts b.acts → NoClash a b) {l : List ℕ} (hl : l.Perm (List.range ops.length))
    (ho : l.Pairwise fun i j => Disjoint (used ops i) (used ops j) ∨ i < j) : Sim (pick ops l) ops := by
  have hE : ∀ i, Elem (atomsAt ops i) := by
    intro i x hx
    rw [atomsAt] at hx
    cases h : ops[i]? with
    | none => rw [h] at hx; cases hx
    | some o =>
      rw [h] at hx
      obtain ⟨a, ha, -⟩ := exists_act (hs o (List.mem_of_getElem? h)) (hv o (List.mem_of_getElem? h)) hx
      exact ⟨a, ha⟩
  have hI : l.Pairwise fun i j => Indep (atomsAt ops i) (atomsAt ops j) ∨ i < j := by
    have hnd : l.Nodup := hl.nodup_iff.2 List.nodup_range
    refine (ho.and hnd).imp ?_
    rintro i j ⟨hd | hlt, hne⟩
    · by_cases hlt : i < j
      · exact Or.inr hlt
      · left
        rw [atomsAt, atomsAt]
        cases hi : ops[i]? with
        | none => intro x hx; cases hx
        | some a =>
          cases hj : ops[j]? with
          | none => intro x _ y hy; cases hy
          | some b =>
            rw [used_of hi, used_of hj, Op.usedQ_plain _ (simple_plain _ (hs a (List.mem_of_getElem? hi))),
              Op.usedQ_plain _ (simple_plain _ (hs b (List.mem_of_getElem? hj)))] at hd
            obtain ⟨hi', ei⟩ := List.getElem?_eq_some_iff.1 hi
            obtain ⟨hj', ej⟩ := List.getElem?_eq_some_iff.1 hj
            have hcl := List.pairwise_iff_getElem.1 hc j i hj' hi' (by omega)
            rw [ei, ej] at hcl
            exact indep_of (hs a (List.mem_of_getElem? hi)) (hs b (List.mem_of_getElem? hj)) (hv a (List.mem_of_getElem? hi))
              (hv b (List.mem_of_getElem? hj)) hd (hcl hd.symm).symm
    · exact Or.inr hlt
  have hsort : l.insertionSort (· ≤ ·) = List.range ops.length := by
    refine List.Perm.eq_of_pairwise (le := (· ≤ ·)) (fun a b _ _ h1 h2 => le_antisymm h1 h2) (List.pairwise_insertionSort _ _) ?_ ((List.perm_insertionSort _ l).trans hl)
    exact List.pairwise_lt_range.imp fun h => le_of_lt h
  refine (Sim.of_eq (run_pick ops l)).trans ((sim_sort _ hE l hI).trans ?_)
  rw [hsort]
  refine Sim.of_eq ?_
  rw [← run_pick, pick_range]

end MQT.Opt.Reorder

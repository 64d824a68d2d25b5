/-
Reversible state transformations, and adding controls to an operation (`Operation::addControls`,
include/mqt-core/ir/operations/Operation.hpp 97-108; `StandardOperation::addControl`, StandardOperation.hpp 85-93;
`CompoundOperation::addControl`, src/ir/operations/CompoundOperation.cpp 95-102).
-/
import Verif.IR.Circuit

set_option autoImplicit false

namespace MQT.IR

open Real
open UOp (Undo)

/-! ### Model -/

/-- The controls are inserted into the set of every standard operation contained. -/
def UOp.withControls {P : Type} (cs : Finset Ctrl) : UOp P → UOp P
  | .std o => .std { o with controls := cs ∪ o.controls }
  | .compound ops => .compound (ops.attach.map fun ⟨o, _⟩ => o.withControls cs)

/-- `addControls`: `none` if an operation contained acts on one of the qubits already (an exception).  The qubits of
`cs` are assumed to be distinct. -/
def UOp.addControls {P : Type} (cs : Finset Ctrl) (o : UOp P) : Option (UOp P) :=
  if ∀ s ∈ o.leaves, ∀ c ∈ cs, s.actsOn c.1 = false then some (o.withControls cs) else none

/-- Every standard operation contained is well-formed, or a barrier (whose targets may repeat). -/
def StdOp.WFB {P : Type} (o : StdOp P) : Prop := o.type ≠ .barrier → o.WF
def UOp.WFB {P : Type} (o : UOp P) : Prop := ∀ s ∈ o.leaves, s.WFB

/-! ### Reversible transformations -/

/-- On the basis states satisfying the controls, the result only depends on the amplitudes of such states. -/
def Loc (cs : Finset Ctrl) (f : State → State) : Prop :=
  ∀ ψ φ : State, (∀ x, Sat cs x → ψ x = φ x) → ∀ x, Sat cs x → f ψ x = f φ x

/-- `f` and `g` undo each other and do not depend on any but the qubits `Q` being shared. -/
structure Rev (Q : ℕ → Prop) (f g : State → State) : Prop where
  undo : Undo f g
  loc : ∀ cs, (∀ q ∈ ctrlQubits cs, ¬ Q q) → Loc cs f ∧ Loc cs g

theorem Undo.symm {f g : State → State} (h : Undo f g) : Undo g f := ⟨h.2, h.1⟩

theorem Undo.unique {f g g' : State → State} (h : Undo f g) (h' : Undo f g') : g = g' := by
  funext ψ
  have := h.1 (g' ψ)
  rw [h'.2] at this
  exact this

theorem Rev.symm {Q : ℕ → Prop} {f g : State → State} (h : Rev Q f g) : Rev Q g f :=
  ⟨Undo.symm h.undo, fun cs hc => (h.loc cs hc).symm⟩

theorem Rev.mono {Q Q' : ℕ → Prop} (hQ : ∀ q, Q q → Q' q) {f g : State → State} (h : Rev Q f g) : Rev Q' f g :=
  ⟨h.undo, fun cs hc => h.loc cs fun q hq hq' => hc q hq (hQ q hq')⟩

theorem Loc.ctl {cs cs' : Finset Ctrl} {f : State → State} (h : Loc cs' f) : Loc cs' (ctl cs f) := by
  intro ψ φ e x hx
  unfold MQT.IR.ctl
  split_ifs
  · exact h ψ φ e x hx
  · exact e x hx

theorem Loc.comp {cs : Finset Ctrl} {f g : State → State} (hf : Loc cs f) (hg : Loc cs g) : Loc cs fun ψ => g (f ψ) :=
  fun ψ φ e x hx => hg _ _ (fun y hy => hf ψ φ e y hy) x hx

theorem ctl_seq {cs : Finset Ctrl} {f g : State → State} (hg : Loc cs g) :
    ctl cs (fun ψ => g (f ψ)) = fun ψ => ctl cs g (ctl cs f ψ) := by
  funext ψ
  exact (ctl_comp hg ψ).symm

theorem ctl_union (cs cs' : Finset Ctrl) (f : State → State) : ctl (cs ∪ cs') f = ctl cs (ctl cs' f) := by
  funext ψ x
  have : Sat (cs ∪ cs') x ↔ Sat cs x ∧ Sat cs' x := by
    unfold Sat
    simp only [Finset.mem_union]
    exact ⟨fun h => ⟨fun c hc => h c (.inl hc), fun c hc => h c (.inr hc)⟩, fun h c hc => hc.elim (h.1 c) (h.2 c)⟩
  unfold ctl
  by_cases h : Sat cs x <;> by_cases h' : Sat cs' x <;> simp [this, h, h']

theorem Rev.ctl {Q : ℕ → Prop} {f g : State → State} (h : Rev Q f g) {cs : Finset Ctrl} (hc : ∀ q ∈ ctrlQubits cs, ¬ Q q) :
    Rev Q (MQT.IR.ctl cs f) (MQT.IR.ctl cs g) := by
  obtain ⟨h1, h2⟩ := h.loc cs hc
  refine ⟨⟨fun ψ => ?_, fun ψ => ?_⟩, fun cs' hc' => ⟨(h.loc cs' hc').1.ctl, (h.loc cs' hc').2.ctl⟩⟩
  · have e := congrFun (ctl_seq (f := f) h2) ψ
    rw [← e]
    simp only [h.undo.1]
    exact ctl_id cs ψ
  · have e := congrFun (ctl_seq (f := g) h1) ψ
    rw [← e]
    simp only [h.undo.2]
    exact ctl_id cs ψ

theorem Rev.id (Q : ℕ → Prop) : Rev Q (fun ψ => ψ) fun ψ => ψ :=
  ⟨⟨fun _ => rfl, fun _ => rfl⟩, fun _ _ => ⟨fun _ _ e => e, fun _ _ e => e⟩⟩

theorem Rev.comp {Q : ℕ → Prop} {f g f' g' : State → State} (h : Rev Q f g) (h' : Rev Q f' g') :
    Rev Q (fun ψ => f' (f ψ)) fun ψ => g (g' ψ) := by
  refine ⟨⟨fun ψ => ?_, fun ψ => ?_⟩, fun cs hc => ⟨(h.loc cs hc).1.comp (h'.loc cs hc).1, (h'.loc cs hc).2.comp (h.loc cs hc).2⟩⟩
  · simp only [h'.undo.1, h.undo.1]
  · simp only [h.undo.2, h'.undo.2]

theorem StdOp.rev {o : StdOp ℝ} (wfb : o.WFB) {f : State → State} (hf : o.denote = some f) :
    ∃ g, Rev (fun q => q ∈ o.targets) f g := by
  rcases StdOp.denote_cases hf with ⟨_, rfl⟩ | ⟨_, θ, _, rfl⟩ | ⟨hs, q, M, h1, h2, rfl⟩ | ⟨ht, q0, q1, M, h1, h2, rfl⟩
  · exact ⟨_, Rev.id _⟩
  · have hloc : ∀ (cs : Finset Ctrl) (z : ℂ), Loc cs (phase z) := fun cs z ψ φ e x hx => by simp only [phase, e x hx]
    refine ⟨ctl o.controls (phase ⟨cos (-θ), sin (-θ)⟩), ⟨?_, ?_⟩, fun cs _ => ⟨(hloc _ _).ctl, (hloc _ _).ctl⟩⟩
    · intro ψ; rw [StdOp.ctl_phase_mul, StdOp.polar_mul_neg, StdOp.ctl_phase_one]
    · intro ψ; rw [StdOp.ctl_phase_mul, mul_comm, StdOp.polar_mul_neg, StdOp.ctl_phase_one]
  · have wf : o.WF := wfb fun e => by rw [e] at hs; cases hs
    have hq : q ∉ ctrlQubits o.controls := wf.disj q (by rw [h1]; simp)
    obtain ⟨u1, u2⟩ := gate1_unitary _ _ _ h2
    refine ⟨ctl o.controls (app1 M.conjTranspose q), ⟨?_, ?_⟩, fun cs hc => ?_⟩
    · intro ψ; rw [ctl_app1_mul hq, u2, ctl_app1_one]
    · intro ψ; rw [ctl_app1_mul hq, u1, ctl_app1_one]
    · have : q ∉ ctrlQubits cs := fun h => hc q h (by rw [h1]; simp)
      exact ⟨Loc.ctl (app1_local this _), Loc.ctl (app1_local this _)⟩
  · have wf : o.WF := wfb fun e => by rw [e] at ht; cases ht
    have hq0 : q0 ∉ ctrlQubits o.controls := wf.disj q0 (by rw [h1]; simp)
    have hq1 : q1 ∉ ctrlQubits o.controls := wf.disj q1 (by rw [h1]; simp)
    have hne : q0 ≠ q1 := by
      have := wf.nodup; rw [h1] at this; simp at this; exact this
    obtain ⟨u1, u2⟩ := gate2_unitary _ _ _ h2
    refine ⟨ctl o.controls (app2 M.conjTranspose q0 q1), ⟨?_, ?_⟩, fun cs hc => ?_⟩
    · intro ψ; rw [ctl_app2_mul hq0 hq1 hne, u2, ctl_app2_one]
    · intro ψ; rw [ctl_app2_mul hq0 hq1 hne, u1, ctl_app2_one]
    · have h0 : q0 ∉ ctrlQubits cs := fun h => hc q0 h (by rw [h1]; simp)
      have h1 : q1 ∉ ctrlQubits cs := fun h => hc q1 h (by rw [h1]; simp)
      exact ⟨Loc.ctl (app2_local h0 h1 _), Loc.ctl (app2_local h0 h1 _)⟩

theorem denoteSeq_rev {l : List (StdOp ℝ)} (wf : ∀ o ∈ l, o.WFB) {f : State → State} (hf : denoteSeq l = some f) :
    ∃ g, Rev (fun q => ∃ o ∈ l, q ∈ o.targets) f g := by
  induction l generalizing f with
  | nil =>
    simp only [denoteSeq, Option.some.injEq] at hf
    subst hf
    exact ⟨_, Rev.id _⟩
  | cons o l ih =>
    obtain ⟨a, r, h1, h2, rfl⟩ := denoteSeq_cons hf
    obtain ⟨g, hg⟩ := StdOp.rev (wf o (by simp)) h1
    obtain ⟨g', hg'⟩ := ih (fun o ho => wf o (by simp [ho])) h2
    exact ⟨_, (hg.mono fun q hq => ⟨o, by simp, hq⟩).comp (hg'.mono fun q ⟨o, ho, hq⟩ => ⟨o, by simp [ho], hq⟩)⟩

/-- Every well-formed operation can be undone, and only touches its targets. -/
theorem UOp.rev {o : UOp ℝ} (wf : o.WFB) {f : State → State} (hf : o.denote = some f) :
    ∃ g, Rev (fun q => ∃ s ∈ o.leaves, q ∈ s.targets) f g :=
  denoteSeq_rev wf ((UOp.denote_leaves o f).1 hf)

/-! ### Adding controls -/

theorem UOp.leaves_withControls {P : Type} (cs : Finset Ctrl) (o : UOp P) :
    (o.withControls cs).leaves = o.leaves.map fun s => { s with controls := cs ∪ s.controls } := by
  match o with
  | .std o => rw [UOp.withControls]; simp
  | .compound l =>
    rw [UOp.withControls, UOp.leaves_compound, UOp.leaves_compound, UOp.leavesL, UOp.leavesL, List.map_flatMap, List.flatMap_map]
    conv_rhs => rw [← List.attach_map_subtype_val l]
    rw [List.flatMap_map]
    congr 1
    funext ⟨o, ho⟩
    exact UOp.leaves_withControls cs o

theorem StdOp.denote_withControls {o : StdOp ℝ} {f : State → State} (hf : o.denote = some f) (cs : Finset Ctrl) :
    ({ o with controls := cs ∪ o.controls } : StdOp ℝ).denote = some (ctl cs f) := by
  rcases StdOp.denote_cases hf with ⟨h, rfl⟩ | ⟨h, θ, h1, rfl⟩ | ⟨hs, q, M, h1, h2, rfl⟩ | ⟨ht, q0, q1, M, h1, h2, rfl⟩
  · rw [StdOp.denote_barrier (o := { o with controls := cs ∪ o.controls }) h]
    congr 1
    funext ψ
    exact (ctl_id cs ψ).symm
  · rw [StdOp.denote_gphase (o := { o with controls := cs ∪ o.controls }) h]
    simp only [h1, Option.map_some, ctl_union]
  · rw [StdOp.denote_single_of (o := { o with controls := cs ∪ o.controls }) hs h1 h2, ctl_union]
  · rw [StdOp.denote_two_of (o := { o with controls := cs ∪ o.controls }) ht h1 h2, ctl_union]

theorem denoteSeq_withControls {l : List (StdOp ℝ)} (wf : ∀ o ∈ l, o.WFB) {cs : Finset Ctrl}
    (hc : ∀ s ∈ l, ∀ c ∈ cs, s.actsOn c.1 = false) {f : State → State} (hf : denoteSeq l = some f) :
    denoteSeq (l.map fun s => { s with controls := cs ∪ s.controls }) = some (ctl cs f) := by
  induction l generalizing f with
  | nil =>
    simp only [denoteSeq, Option.some.injEq] at hf
    subst hf
    simp only [List.map_nil, denoteSeq, Option.some.injEq]
    funext ψ
    exact (ctl_id cs ψ).symm
  | cons o l ih =>
    obtain ⟨a, r, h1, h2, rfl⟩ := denoteSeq_cons hf
    have h3 := ih (fun o ho => wf o (by simp [ho])) (fun s hs => hc s (by simp [hs])) h2
    rw [List.map_cons, denoteSeq_cons_of (StdOp.denote_withControls h1 cs) h3]
    obtain ⟨g, hg⟩ := denoteSeq_rev (fun o ho => wf o (by simp [ho])) h2
    have hl : Loc cs r := by
      refine (hg.loc cs ?_).1
      rintro q hq ⟨s, hs, ht⟩
      obtain ⟨c, hcc, rfl⟩ := Finset.mem_image.1 hq
      have := hc s (by simp [hs]) c hcc
      simp [StdOp.actsOn, ht] at this
    rw [ctl_seq (f := a) hl]

/-- Adding controls to an operation makes the whole of it controlled. -/
theorem UOp.denote_addControls {o o' : UOp ℝ} (wf : o.WFB) {cs : Finset Ctrl} (h : o.addControls cs = some o')
    {f : State → State} (hf : o.denote = some f) : o'.denote = some (ctl cs f) := by
  unfold UOp.addControls at h
  split_ifs at h with hc
  obtain rfl := Option.some.inj h
  rw [UOp.denote_leaves, UOp.leaves_withControls]
  exact denoteSeq_withControls wf hc ((UOp.denote_leaves o f).1 hf)

theorem UOp.WFB.addControls {P : Type} {o o' : UOp P} (wf : o.WFB) {cs : Finset Ctrl} (h : o.addControls cs = some o') : o'.WFB := by
  unfold UOp.addControls at h
  split_ifs at h with hc
  obtain rfl := Option.some.inj h
  intro s hs hb
  rw [UOp.leaves_withControls, List.mem_map] at hs
  obtain ⟨s, hs, rfl⟩ := hs
  have wf := wf s hs hb
  refine ⟨wf.nodup, fun q hq hq' => ?_⟩
  obtain ⟨c, hcc, rfl⟩ := Finset.mem_image.1 hq'
  rcases Finset.mem_union.1 hcc with h1 | h1
  · have := hc s hs c h1
    simp [StdOp.actsOn, show c.1 ∈ s.targets from hq] at this
  · exact wf.disj _ hq (Finset.mem_image_of_mem _ h1)

/-! ### Inversion -/

theorem StdOp.invert_undoB {o o' : StdOp ℝ} (wf : o.WFB) (h : o.invert = some o') {f : State → State} (hf : o.denote = some f) :
    ∃ g, o'.denote = some g ∧ Undo f g := by
  by_cases hb : o.type = .barrier
  · rw [StdOp.denote_barrier hb] at hf
    obtain rfl := Option.some.inj hf
    exact ⟨_, StdOp.denote_barrier ((StdOp.invert_isInv h).barrier hb), fun _ => rfl, fun _ => rfl⟩
  · obtain ⟨g, h2, h3, h4⟩ := (StdOp.invert_isInv h).undo (wf hb) hf
    exact ⟨g, h2, h3, h4⟩

theorem StdOp.WFB.invert {o o' : StdOp ℝ} (wf : o.WFB) (h : o.invert = some o') : o'.WFB := by
  intro hb
  obtain ⟨ty, ps, cs, ts⟩ := o
  have key : ∀ (ty' : OpType) (ps' : List ℝ), ty ≠ .barrier → (⟨ty', ps', cs, ts⟩ : StdOp ℝ).WF := fun ty' ps' hty =>
    ⟨(wf hty).nodup, (wf hty).disj⟩
  cases ty <;> simp only [StdOp.invert, Option.some.injEq, reduceCtorEq, Option.map_eq_some_iff] at h
  case barrier => subst h; exact absurd rfl hb
  case u2 =>
    split at h
    · injection h with h; subst h; exact key _ _ (by simp)
    · cases h
  case u =>
    split at h
    · injection h with h; subst h; exact key _ _ (by simp)
    · cases h
  case dcx =>
    split at h
    · injection h with h; subst h
      rename_i _ a b l
      have w := wf (by simp)
      refine ⟨?_, fun q hq => w.disj q ?_⟩
      · exact (List.Perm.swap b a l).nodup_iff.1 w.nodup
      · exact (List.Perm.swap b a l).mem_iff.2 hq
    · cases h
  all_goals
    first
      | (subst h; exact key _ _ (by simp))
      | (obtain ⟨ps', _, rfl⟩ := h; exact key _ _ (by simp))

theorem UOp.invertL_undoB (l : List (UOp ℝ))
    (ih : ∀ o ∈ l, ∀ o' f, o.WFB → o.invert = some o' → o.denote = some f → o'.WFB ∧ ∃ g, o'.denote = some g ∧ Undo f g)
    (wf : ∀ o ∈ l, o.WFB) (l' : List (UOp ℝ)) (h : l.mapM UOp.invert = some l') (f : State → State) (hf : UOp.denoteL l = some f) :
    (∀ o ∈ l', o.WFB) ∧ ∃ g, UOp.denoteL l'.reverse = some g ∧ Undo f g := by
  induction l generalizing l' f with
  | nil =>
    simp at h; subst h
    refine ⟨by simp, f, hf, ?_⟩
    simp only [UOp.denoteL, List.foldl_nil, Option.some.injEq] at hf; subst hf
    exact ⟨fun _ => rfl, fun _ => rfl⟩
  | cons o l ihl =>
    obtain ⟨o', r', h1, h2, rfl⟩ := UOp.mapM_cons_some h
    obtain ⟨a, r, h3, h4, rfl⟩ := UOp.denoteL_cons hf
    obtain ⟨w1, g, h5, h6⟩ := ih o (by simp) o' a (wf o (by simp)) h1 h3
    obtain ⟨w2, k, h7, h8⟩ := ihl (fun o ho => ih o (List.mem_cons_of_mem _ ho))
      (fun o ho => wf o (List.mem_cons_of_mem _ ho)) r' h2 r h4
    refine ⟨?_, fun ψ => g (k ψ), ?_, ?_, ?_⟩
    · intro o ho
      rcases List.mem_cons.1 ho with rfl | ho
      · exact w1
      · exact w2 o ho
    · rw [List.reverse_cons, UOp.denoteL_snoc, h7, h5]
    · intro ψ; simp only [h8.1, h6.1]
    · intro ψ; simp only [h6.2, h8.2]

theorem UOp.WFB.of_mem {P : Type} {l : List (UOp P)} (wf : (UOp.compound l).WFB) {o : UOp P} (ho : o ∈ l) : o.WFB := by
  intro s hs
  refine wf s ?_
  rw [UOp.leaves_compound, UOp.leavesL, List.mem_flatMap]
  exact ⟨o, ho, hs⟩

theorem UOp.WFB.compound {P : Type} {l : List (UOp P)} (wf : ∀ o ∈ l, o.WFB) : (UOp.compound l).WFB := by
  intro s hs
  rw [UOp.leaves_compound, UOp.leavesL, List.mem_flatMap] at hs
  obtain ⟨o, ho, hs⟩ := hs
  exact wf o ho s hs

theorem UOp.invert_undoB (o : UOp ℝ) (o' : UOp ℝ) (f : State → State) (wf : o.WFB) (h : o.invert = some o') (hf : o.denote = some f) :
    o'.WFB ∧ ∃ g, o'.denote = some g ∧ Undo f g := by
  match o with
  | .std o =>
    rw [UOp.invert, Option.map_eq_some_iff] at h
    obtain ⟨s, h1, rfl⟩ := h
    rw [UOp.denote] at hf
    have w : o.WFB := wf o (by simp)
    obtain ⟨g, h2, h3⟩ := StdOp.invert_undoB w h1 hf
    refine ⟨?_, g, by rw [UOp.denote]; exact h2, h3⟩
    intro s' hs
    rw [UOp.leaves_std, List.mem_singleton] at hs
    subst hs
    exact w.invert h1
  | .compound l =>
    rw [UOp.invert_compound, Option.map_eq_some_iff] at h
    obtain ⟨r, h1, rfl⟩ := h
    rw [UOp.invertL, Option.map_eq_some_iff] at h1
    obtain ⟨l', h1, rfl⟩ := h1
    rw [UOp.denote_compound] at hf
    obtain ⟨w, g, h2, h3⟩ := UOp.invertL_undoB l (fun o ho o' f => UOp.invert_undoB o o' f) (fun o ho => wf.of_mem ho) l' h1 f hf
    exact ⟨UOp.WFB.compound fun o ho => w o (List.mem_reverse.1 ho), g, by rw [UOp.denote_compound]; exact h2, h3⟩

end MQT.IR

/-
Lemmas about the type check.
-/
import Verif.QASM.TypeCheck

set_option autoImplicit false

namespace MQT.QASM.TypeCheck

/-- The pointers of the environment point to types. -/
def St.Valid (s : St) : Prop := ∀ x p, s.env.lookup x = some p → p < s.heap.length

/-- No two of the identifiers have the same type object. -/
def Separate (s : St) (l : List String) : Prop := (l.map fun x => s.env.lookup x).Nodup

def Known (s : St) (l : List String) : Prop := ∀ x ∈ l, s.env.lookup x ≠ none

/-- What an expression leaves as it is, and where the pointer comes from. -/
structure Frame (l : List String) (s : St) (p : Option ℕ) (s' : St) : Prop where
  env : s'.env = s.env
  len : s.heap.length ≤ s'.heap.length
  err : s.err = true → s'.err = true
  same : ∀ i < s.heap.length, (∀ x ∈ l, s.env.lookup x ≠ some i) → s'.heap[i]? = s.heap[i]?
  ptr : ∀ i, p = some i → i < s'.heap.length ∧ (s.heap.length ≤ i ∨ ∃ x ∈ l, s.env.lookup x = some i)
  null : p = none → s'.err = true

theorem Frame.mono {l l' : List String} {s s' : St} {p : Option ℕ} (h : Frame l s p s') (hl : ∀ x ∈ l, x ∈ l') : Frame l' s p s' where
  env := h.env
  len := h.len
  err := h.err
  same i hi hx := h.same i hi fun x hxl => hx x (hl x hxl)
  ptr i hi := ⟨(h.ptr i hi).1, (h.ptr i hi).2.imp id fun ⟨x, hx, e⟩ => ⟨x, hl x hx, e⟩⟩
  null := h.null

theorem Frame.valid {l : List String} {s s' : St} {p : Option ℕ} (h : Frame l s p s') (hv : s.Valid) : s'.Valid := fun x i hx =>
  lt_of_lt_of_le (hv x i (by rw [← h.env]; exact hx)) h.len

/-- Any pointer into the heap, or to what the first expression returned. -/
theorem Frame.trans {l l' : List String} {s s1 s2 : St} {p q : Option ℕ} (h : Frame l s p s1) (h' : Frame l' s1 q s2) :
    Frame (l ++ l') s q s2 where
  env := h'.env.trans h.env
  len := h.len.trans h'.len
  err e := h'.err (h.err e)
  same i hi hx := by
    rw [h'.same i (lt_of_lt_of_le hi h.len) fun x hxl => by rw [h.env]; exact hx x (List.mem_append_right _ hxl)]
    exact h.same i hi fun x hxl => hx x (List.mem_append_left _ hxl)
  ptr i hi := by
    obtain ⟨h1, h2⟩ := h'.ptr i hi
    refine ⟨h1, ?_⟩
    rcases h2 with h2 | ⟨x, hx, e⟩
    · exact .inl (h.len.trans h2)
    · exact .inr ⟨x, List.mem_append_right _ hx, by rw [← h.env]; exact e⟩
  null := h'.null

theorem frame_alloc (l : List String) (t : Ty) (s : St) : Frame l s (alloc t s).1 (alloc t s).2 where
  env := rfl
  len := by simp [alloc]
  err h := h
  same i hi _ := by simp [alloc, List.getElem?_append_left hi]
  ptr i hi := by
    simp only [alloc, Option.some.injEq] at hi
    subst hi
    simp [alloc]
  null h := by simp [alloc] at h

theorem frame_fail (l : List String) (s : St) : Frame l s (fail s).1 (fail s).2 where
  env := rfl
  len := le_refl _
  err _ := rfl
  same i _ _ := rfl
  ptr i hi := by simp [fail] at hi
  null _ := rfl

/-- Returning a pointer that is there already. -/
theorem Frame.again {l : List String} {s s' : St} {p : Option ℕ} (h : Frame l s p s') {s2 : St} {q : Option ℕ} (e : s2.env = s'.env)
    (hl : s'.heap.length ≤ s2.heap.length) (he : s'.err = true → s2.err = true)
    (hs : ∀ i < s'.heap.length, (∀ x ∈ l, s.env.lookup x ≠ some i) → i < s.heap.length → s2.heap[i]? = s'.heap[i]?)
    (hp : ∀ i, q = some i → i < s2.heap.length ∧ (s.heap.length ≤ i ∨ ∃ x ∈ l, s.env.lookup x = some i)) (hn : q = none → s2.err = true) :
    Frame l s q s2 where
  env := e.trans h.env
  len := h.len.trans hl
  err x := he (h.err x)
  same i hi hx := (hs i (lt_of_lt_of_le hi h.len) hx hi).trans (h.same i hi hx)
  ptr := hp
  null := hn

theorem bind_eq_ok {α β : Type} {a : Res α} {f : α → Res β} {b : β} (h : a.bind f = .ok b) : ∃ x, a = .ok x ∧ f x = .ok b := by
  cases a with
  | ok x => exact ⟨x, rfl, h⟩
  | throw => cases h
  | ub => cases h

theorem deref_ok {s : St} {p : Option ℕ} {t : Ty} (h : deref s p = .ok t) : ∃ i, p = some i ∧ s.heap[i]? = some t := by
  unfold deref at h
  cases p with
  | none => cases h
  | some i =>
    simp only at h
    cases hi : s.heap[i]? with
    | none => rw [hi] at h; cases h
    | some u => rw [hi] at h; cases h; exact ⟨i, rfl, hi⟩

theorem deref_some {s : St} {i : ℕ} {t : Ty} (h : s.heap[i]? = some t) : deref s (some i) = .ok t := by
  simp [deref, h]

theorem setWidth_ok {s s' : St} {p : Option ℕ} {w : ℕ} (h : setWidth s p w = .ok s') :
    ∃ i k v, p = some i ∧ s.heap[i]? = some (.sized k v) ∧ s' = { s with heap := s.heap.set i (.sized k w) } := by
  obtain ⟨t, h1, h2⟩ := bind_eq_ok h
  obtain ⟨t', h3, h4⟩ := bind_eq_ok h2
  obtain ⟨i, rfl, h5⟩ := deref_ok h1
  cases t with
  | sized k v =>
    cases h3
    cases h4
    exact ⟨i, k, v, rfl, h5, rfl⟩
  | bool => cases h3
  | duration => cases h3

theorem setWidth_some {s : St} {i : ℕ} {k : Kind} {v w : ℕ} (h : s.heap[i]? = some (.sized k v)) :
    setWidth s (some i) w = .ok { s with heap := s.heap.set i (.sized k w) } := by
  simp [setWidth, deref_some h, Res.bind, Ty.setWidth]

theorem Frame.set {l : List String} {s s' : St} {p : Option ℕ} (h : Frame l s p s') {q : Option ℕ} {i : ℕ} (hq : q = some i)
    (hp : i < s'.heap.length ∧ (s.heap.length ≤ i ∨ ∃ x ∈ l, s.env.lookup x = some i)) (t : Ty) :
    Frame l s q { s' with heap := s'.heap.set i t } := by
  refine h.again rfl (by simp) (fun x => x) ?_ ?_ (by simp [hq])
  · intro j hj hx hjl
    refine List.getElem?_set_ne ?_
    rintro rfl
    rcases hp.2 with h' | ⟨x, hx', e⟩
    · omega
    · exact hx x hx' e
  · intro j hj
    rw [hq, Option.some.injEq] at hj
    subst hj
    simpa using hp

/-- A pointer of before is still one. -/
theorem Frame.keep {l : List String} {s s' : St} {p : Option ℕ} {i : ℕ} (h : Frame l s p s') (s2 : St) {q : Option ℕ} {l' : List String}
    (hi : i < s.heap.length ∧ (s2.heap.length ≤ i ∨ ∃ x ∈ l', s2.env.lookup x = some i)) (_ : q = some i) :
    i < s'.heap.length ∧ (s2.heap.length ≤ i ∨ ∃ x ∈ l', s2.env.lookup x = some i) := ⟨lt_of_lt_of_le hi.1 h.len, hi.2⟩

theorem frame_operandTy {n : List String} {s : St} {l r : Option ℕ} {s1 s2 : St} {c : Option ℕ × St} {p : Option ℕ}
    (h : Frame n s p s1) (hl : ∀ i, l = some i → i < s1.heap.length ∧ (s.heap.length ≤ i ∨ ∃ x ∈ n, s.env.lookup x = some i))
    (hr : ∀ i, r = some i → i < s1.heap.length ∧ (s.heap.length ≤ i ∨ ∃ x ∈ n, s.env.lookup x = some i)) (he : s2 = s1)
    (ho : operandTy l r s2 = .ok c) : Frame n s c.1 c.2 := by
  subst he
  obtain ⟨tl, h1, h2⟩ := bind_eq_ok ho
  obtain ⟨tr, h3, h4⟩ := bind_eq_ok h2
  obtain ⟨i, rfl, hi⟩ := deref_ok h1
  obtain ⟨j, rfl, hj⟩ := deref_ok h3
  have hal : ∀ t, Frame n s (alloc t s2).1 (alloc t s2).2 := fun t => (h.trans (frame_alloc [] t s2)).mono (by simp)
  have hfl : Frame n s (fail s2).1 (fail s2).2 := (h.trans (frame_fail [] s2)).mono (by simp)
  split_ifs at h4 with c1 c2 c3 c4
  · cases h4; exact hal _
  · obtain ⟨wl, e1, h4⟩ := bind_eq_ok h4
    obtain ⟨wr, e2, h4⟩ := bind_eq_ok h4
    obtain ⟨s', e3, h4⟩ := bind_eq_ok h4
    obtain ⟨a, k, v, ha, hk, rfl⟩ := setWidth_ok e3
    cases h4
    cases ha
    exact h.set rfl (hr _ rfl) _
  · obtain ⟨wl, e1, h4⟩ := bind_eq_ok h4
    obtain ⟨wr, e2, h4⟩ := bind_eq_ok h4
    obtain ⟨s', e3, h4⟩ := bind_eq_ok h4
    obtain ⟨a, k, v, ha, hk, rfl⟩ := setWidth_ok e3
    cases h4
    cases ha
    exact h.set rfl (hl _ rfl) _
  · cases h4; exact hfl
  · cases h4
    exact h.again rfl (le_refl _) id (fun _ _ _ _ => rfl) hl (by simp)

theorem frame_resultTy {n : List String} {s s1 : St} {o : Bin} {p : Option ℕ} {c : Option ℕ × St} (h : Frame n s p s1)
    (ho : resultTy o p s1 = .ok c) : Frame n s c.1 c.2 := by
  have hal : ∀ t, Frame n s (alloc t s1).1 (alloc t s1).2 := fun t => (h.trans (frame_alloc [] t s1)).mono (by simp)
  have hfl : Frame n s (fail s1).1 (fail s1).2 := (h.trans (frame_fail [] s1)).mono (by simp)
  have key : ∀ (b : Bool) (x y : Option ℕ × St), Frame n s x.1 x.2 → Frame n s y.1 y.2 →
      Frame n s (if b = true then x else y).1 (if b = true then x else y).2 := by
    intro b x y hx hy
    cases b <;> simpa
  cases o <;> simp only [resultTy] at ho
  all_goals first
    | (cases ho; exact hal _)
    | (obtain ⟨t, h1, h2⟩ := bind_eq_ok ho; cases h2; exact key _ _ _ h hfl)
    | (obtain ⟨t, h1, h2⟩ := bind_eq_ok ho; cases h2; exact key _ _ _ hfl (hal _))

theorem frame_visit (e : Ex) : ∀ {s : St}, s.Valid → ∀ {a : Option ℕ × St}, visit e s = .ok a → Frame e.names s a.1 a.2 := by
  induction e with
  | const c =>
    intro s hv a h
    cases h
    exact frame_alloc _ _ _
  | name x b =>
    intro s hv a h
    rw [visit] at h
    have refl : ∀ p, s.env.lookup x = some p → Frame [x] s (some p) s := fun p hp =>
      { env := rfl, len := le_refl _, err := id, same := fun _ _ _ => rfl,
        ptr := fun i hi => by
          cases hi
          exact ⟨hv _ _ hp, .inr ⟨x, by simp, hp⟩⟩
        null := by simp }
    cases hl : s.env.lookup x with
    | none =>
      rw [hl] at h
      simp only at h
      split_ifs at h
      cases h
      exact frame_fail _ _
    | some p =>
      rw [hl] at h
      simp only at h
      split_ifs at h
      · obtain ⟨s', h1, h2⟩ := bind_eq_ok h
        cases h2
        obtain ⟨i, k, v, hi, hk, rfl⟩ := setWidth_ok h1
        cases hi
        exact (refl p hl).set rfl ⟨hv _ _ hl, .inr ⟨x, by simp, hl⟩⟩ _
      · cases h
        exact refl p hl
  | un o e ih =>
    intro s hv a h
    rw [visit] at h
    obtain ⟨b, h1, h2⟩ := bind_eq_ok h
    have hf := ih hv h1
    have hal : ∀ t, Frame e.names s (alloc t b.2).1 (alloc t b.2).2 := fun t => (hf.trans (frame_alloc [] t b.2)).mono (by simp)
    have hfl : Frame e.names s (fail b.2).1 (fail b.2).2 := (hf.trans (frame_fail [] b.2)).mono (by simp)
    rw [Ex.names]
    cases o <;> simp only at h2
    · obtain ⟨t, _, h2⟩ := bind_eq_ok h2
      cases h2
      split_ifs
      · exact hf
      · exact hfl
    · obtain ⟨t, _, h2⟩ := bind_eq_ok h2
      cases h2
      split_ifs
      · exact hf
      · exact hfl
    · cases h2; exact hf
    · cases h2; exact hal _
    · cases h2; exact hal _
  | bin o l r ihl ihr =>
    intro s hv a h
    rw [visit] at h
    obtain ⟨b, h1, h2⟩ := bind_eq_ok h
    obtain ⟨c, h3, h4⟩ := bind_eq_ok h2
    have hl := ihl hv h1
    have hr := ihr (hl.valid hv) h3
    have hf := hl.trans hr
    rw [Ex.names]
    split_ifs at h4 with hn
    · cases h4
      refine hf.again rfl (le_refl _) id (fun _ _ _ _ => rfl) (by simp) fun _ => ?_
      rcases hn with hn | hn
      · exact hr.err (hl.null hn)
      · exact hr.null hn
    · obtain ⟨d, h5, h6⟩ := bind_eq_ok h4
      push Not at hn
      have hd := frame_operandTy (n := l.names ++ r.names) hf (l := b.1) (r := c.1) (fun i hi => by
        have := hl.ptr i hi
        exact ⟨lt_of_lt_of_le this.1 hr.len, this.2.imp id fun ⟨x, hx, e⟩ => ⟨x, List.mem_append_left _ hx, e⟩⟩) hf.ptr rfl h5
      split_ifs at h6 with hn2
      · cases h6; exact hd
      · exact frame_resultTy hd h6

/-! ### Types of expressions -/

theorem common_unique {t t' u v : Ty} (h : Common t t' u) (h' : Common t t' v) : u = v := by
  rcases h with ⟨a, b, rfl⟩ | ⟨a, k, w, k', w', rfl, rfl, _, _, rfl⟩
  · rcases h' with ⟨_, _, rfl⟩ | ⟨c, _⟩
    · rfl
    · exact absurd ⟨a, b⟩ c
  · rcases h' with ⟨b, c, _⟩ | ⟨_, k2, w2, k2', w2', e1, e2, _, _, rfl⟩
    · exact absurd ⟨b, c⟩ a
    · cases e1
      cases e2
      rfl

theorem result_unique {o : Bin} {u t t' : Ty} (h : ResultOf o u t) (h' : ResultOf o u t') : t = t' := by
  cases o <;> simp only [ResultOf] at h h' <;> first | exact h.trans h'.symm | exact h.2.trans h'.2.symm

theorem hasTy_unique {Γ : Ctx} {e : Ex} {t : Ty} (h : HasTy Γ e t) : ∀ {t' : Ty}, HasTy Γ e t' → t = t' := by
  induction h with
  | const c => intro t' h'; cases h'; rfl
  | name h => intro t' h'; cases h' with | name h'' => exact Option.some.inj (h.symm.trans h'')
  | elem h => intro t' h'; cases h' with | elem h'' => cases h.symm.trans h''; rfl
  | bnot _ _ ih => intro t' h'; cases h' with | bnot h'' _ => exact ih h''
  | lnot _ _ ih => intro t' h'; cases h' with | lnot h'' _ => exact ih h''
  | neg _ ih => intro t' h'; cases h' with | neg h'' => exact ih h''
  | durationOf _ _ => intro t' h'; cases h' with | durationOf _ => rfl
  | fn _ _ => intro t' h'; cases h' with | fn _ => rfl
  | bin _ _ hc hr ih ih' =>
    intro t' h'
    cases h' with
    | bin h1 h2 hc' hr' =>
      cases ih h1
      cases ih' h2
      cases common_unique hc hc'
      exact result_unique hr hr'

/-- Only the types of the identifiers that occur matter. -/
theorem hasTy_congr {Γ Γ' : Ctx} {e : Ex} {t : Ty} (h : HasTy Γ e t) (hx : ∀ x ∈ e.names, Γ x = Γ' x) : HasTy Γ' e t := by
  induction h with
  | const c => exact .const c
  | name h => exact .name (by rw [← hx _ (by simp [Ex.names])]; exact h)
  | elem h => exact .elem (by rw [← hx _ (by simp [Ex.names])]; exact h)
  | bnot _ hn ih => exact .bnot (ih hx) hn
  | lnot _ hn ih => exact .lnot (ih hx) hn
  | neg _ ih => exact .neg (ih hx)
  | durationOf _ ih => exact .durationOf (ih hx)
  | fn _ ih => exact .fn (ih hx)
  | bin _ _ hc hr ih ih' =>
    exact .bin (ih fun x h => hx x (by simp [Ex.names, h])) (ih' fun x h => hx x (by simp [Ex.names, h])) hc hr

/-- What the check returns for an expression: its type, or an error if it has none. -/
def Checked (Γ : Ctx) (e : Ex) (s : St) (r : Res (Option ℕ × St)) : Prop :=
  (∃ i s' t, r = .ok (some i, s') ∧ s'.heap[i]? = some t ∧ HasTy Γ e t ∧ s'.err = s.err) ∨
  (∀ t, ¬ HasTy Γ e t) ∧ ∀ a, r = .ok a → a.2.err = true

theorem operandTy_checked {s : St} {i j : ℕ} {t t' : Ty} (hij : i ≠ j) (hi : s.heap[i]? = some t) (hj : s.heap[j]? = some t') :
    (∃ p s' u, operandTy (some i) (some j) s = .ok (some p, s') ∧ s'.heap[p]? = some u ∧ Common t t' u ∧ s'.err = s.err) ∨
    (∀ u, ¬ Common t t' u) ∧ operandTy (some i) (some j) s = .ok (fail s) := by
  have lt_of : ∀ {a : ℕ} {t : Ty}, s.heap[a]? = some t → a < s.heap.length := fun h => (List.getElem?_eq_some_iff.1 h).1
  simp only [operandTy, deref_some hi, deref_some hj, Res.bind]
  by_cases hb : t.toBool = true ∧ t'.toBool = true
  · rw [if_pos hb]
    exact .inl ⟨_, _, .bool, rfl, by simp, .inl ⟨hb.1, hb.2, rfl⟩, rfl⟩
  · rw [if_neg hb]
    by_cases hn : t.isNumber = true ∧ t'.isNumber = true
    · rw [if_pos hn]
      cases t with
      | bool => simp [Ty.isNumber] at hn
      | duration => simp [Ty.isNumber] at hn
      | sized k w =>
        cases t' with
        | bool => simp [Ty.isNumber] at hn
        | duration => simp [Ty.isNumber] at hn
        | sized k' w' =>
          simp only [Ty.width]
          have hc : ((Ty.sized k' w').isFP = true ∨ (Ty.sized k w).isUint = true) ↔ (k' = .float ∨ k = .uint) := by simp [Ty.isFP, Ty.isUint]
          by_cases hf : k' = .float ∨ k = .uint
          · rw [if_pos (hc.2 hf), setWidth_some hj]
            refine .inl ⟨j, _, .sized k' (max w w'), rfl, by simp [lt_of hj], .inr ⟨hb, k, w, k', w', rfl, rfl, hn.1, hn.2, by rw [if_pos hf]⟩, rfl⟩
          · rw [if_neg (mt hc.1 hf), setWidth_some hi]
            refine .inl ⟨i, _, .sized k (max w w'), rfl, by simp [lt_of hi], .inr ⟨hb, k, w, k', w', rfl, rfl, hn.1, hn.2, by rw [if_neg hf]⟩, rfl⟩
    · rw [if_neg hn, if_pos (by simpa using hij)]
      refine .inr ⟨?_, rfl⟩
      rintro u (⟨h1, h2, _⟩ | ⟨_, k, w, k', w', _, _, h1, h2, _⟩)
      · exact hb ⟨h1, h2⟩
      · exact hn ⟨h1, h2⟩

theorem resultTy_checked {s : St} {o : Bin} {i : ℕ} {u : Ty} (hi : s.heap[i]? = some u) :
    (∃ p s' t, resultTy o (some i) s = .ok (some p, s') ∧ s'.heap[p]? = some t ∧ ResultOf o u t ∧ s'.err = s.err) ∨
    (∀ t, ¬ ResultOf o u t) ∧ resultTy o (some i) s = .ok (fail s) := by
  have num : (∃ p s' t, (Res.ok (if u.isNumber then (some i, s) else fail s) : Res _) = .ok (some p, s') ∧ s'.heap[p]? = some t ∧
      (u.isNumber = true ∧ t = u) ∧ s'.err = s.err) ∨ (∀ t, ¬ (u.isNumber = true ∧ t = u)) ∧
      (Res.ok (if u.isNumber then (some i, s) else fail s) : Res _) = .ok (fail s) := by
    cases hu : u.isNumber
    · exact .inr ⟨by simp, rfl⟩
    · exact .inl ⟨i, s, u, rfl, hi, ⟨rfl, rfl⟩, rfl⟩
  have cmp : (∃ p s' t, (Res.ok (if u.isBool then fail s else alloc Ty.bool s) : Res _) = .ok (some p, s') ∧ s'.heap[p]? = some t ∧
      (u.isBool = false ∧ t = Ty.bool) ∧ s'.err = s.err) ∨ (∀ t, ¬ (u.isBool = false ∧ t = Ty.bool)) ∧
      (Res.ok (if u.isBool then fail s else alloc Ty.bool s) : Res _) = .ok (fail s) := by
    cases hu : u.isBool
    · exact .inl ⟨_, _, .bool, rfl, by simp, ⟨rfl, rfl⟩, rfl⟩
    · exact .inr ⟨by simp, rfl⟩
  have log : (∃ p s' t, (Res.ok (if u.isBool then (some i, s) else fail s) : Res _) = .ok (some p, s') ∧ s'.heap[p]? = some t ∧
      (u = Ty.bool ∧ t = u) ∧ s'.err = s.err) ∨ (∀ t, ¬ (u = Ty.bool ∧ t = u)) ∧
      (Res.ok (if u.isBool then (some i, s) else fail s) : Res _) = .ok (fail s) := by
    cases u with
    | bool => exact .inl ⟨i, s, .bool, rfl, hi, ⟨rfl, rfl⟩, rfl⟩
    | duration => exact .inr ⟨by simp, rfl⟩
    | sized k w => exact .inr ⟨by simp, rfl⟩
  cases o <;> simp only [resultTy, ResultOf, deref_some hi, Res.bind]
  all_goals first
    | exact num
    | exact cmp
    | exact log
    | exact .inl ⟨_, _, .bool, rfl, by simp, rfl, rfl⟩

/-- The types of identifiers that do not occur are as before. -/
theorem Frame.ctx {l : List String} {s s' : St} {p : Option ℕ} (h : Frame l s p s') (hv : s.Valid) {x : String}
    (hx : ∀ y ∈ l, s.env.lookup x ≠ none → s.env.lookup y ≠ s.env.lookup x) : s'.ctx x = s.ctx x := by
  unfold St.ctx
  rw [h.env]
  cases hl : s.env.lookup x with
  | none => rfl
  | some i =>
    simp only [Option.bind_some]
    refine h.same i (hv _ _ hl) fun y hy => ?_
    have := hx y hy (by rw [hl]; simp)
    rwa [hl] at this

theorem visit_checked (e : Ex) : ∀ {s : St}, s.Valid → Separate s e.names → Known s e.names → Checked s.ctx e s (visit e s) := by
  induction e with
  | const c =>
    intro s hv _ _
    exact .inl ⟨_, _, constTy c, rfl, by simp, .const c, rfl⟩
  | name x b =>
    intro s hv _ hk
    cases hl : s.env.lookup x with
    | none => exact absurd hl (hk x (by simp [Ex.names]))
    | some p =>
      have hp := hv _ _ hl
      obtain ⟨t, ht⟩ : ∃ t, s.heap[p]? = some t := ⟨_, List.getElem?_eq_getElem hp⟩
      have hc : s.ctx x = some t := by simp [St.ctx, hl, ht]
      rw [visit, hl]
      simp only
      cases b with
      | false => exact .inl ⟨p, s, t, rfl, ht, .name hc, rfl⟩
      | true =>
        simp only [if_true]
        cases t with
        | sized k w =>
          rw [setWidth_some ht]
          exact .inl ⟨p, _, .sized k 1, rfl, by simp [hp], .elem hc, rfl⟩
        | bool =>
          refine .inr ⟨fun t h => ?_, fun a h => ?_⟩
          · cases h with | elem h => rw [hc] at h; cases h
          · simp [setWidth, deref_some ht, Res.bind, Ty.setWidth] at h
        | duration =>
          refine .inr ⟨fun t h => ?_, fun a h => ?_⟩
          · cases h with | elem h => rw [hc] at h; cases h
          · simp [setWidth, deref_some ht, Res.bind, Ty.setWidth] at h
  | un o e ih =>
    intro s hv hs hk
    have h := ih hv hs hk
    rw [visit]
    rcases h with ⟨i, s', t, h1, h2, h3, h4⟩ | ⟨hn, he⟩
    · rw [h1]
      simp only [Res.bind]
      cases o <;> simp only
      · rw [deref_some h2]
        simp only
        cases hb : t.isNumber
        · refine .inr ⟨fun u hu => ?_, fun a ha => by cases ha; rfl⟩
          cases hu with | bnot hu hb' => cases hasTy_unique h3 hu; rw [hb] at hb'; cases hb'
        · exact .inl ⟨i, s', t, rfl, h2, .bnot h3 hb, h4⟩
      · rw [deref_some h2]
        simp only
        cases hb : t.toBool
        · refine .inr ⟨fun u hu => ?_, fun a ha => by cases ha; rfl⟩
          cases hu with | lnot hu hb' => cases hasTy_unique h3 hu; rw [hb] at hb'; cases hb'
        · exact .inl ⟨i, s', t, rfl, h2, .lnot h3 hb, h4⟩
      · exact .inl ⟨i, s', t, rfl, h2, .neg h3, h4⟩
      · exact .inl ⟨_, _, _, rfl, by simp, .durationOf h3, h4⟩
      · exact .inl ⟨_, _, _, rfl, by simp, .fn h3, h4⟩
    · refine .inr ⟨fun t ht => ?_, fun a ha => ?_⟩
      · cases ht with
        | bnot h _ => exact hn _ h
        | lnot h _ => exact hn _ h
        | neg h => exact hn _ h
        | durationOf h => exact hn _ h
        | fn h => exact hn _ h
      · obtain ⟨b, hb, ha⟩ := bind_eq_ok ha
        have := he b hb
        cases o <;> simp only at ha
        · obtain ⟨t, _, ha⟩ := bind_eq_ok ha
          cases ha
          split_ifs
          · exact this
          · rfl
        · obtain ⟨t, _, ha⟩ := bind_eq_ok ha
          cases ha
          split_ifs
          · exact this
          · rfl
        · cases ha; exact this
        · cases ha; exact this
        · cases ha; exact this
  | bin o l r ihl ihr =>
    intro s hv hs hk
    rw [Separate, Ex.names, List.map_append, List.nodup_append] at hs
    obtain ⟨hsl, hsr, hd⟩ := hs
    have hkl : Known s l.names := fun x hx => hk x (by simp [Ex.names, hx])
    have hkr : Known s r.names := fun x hx => hk x (by simp [Ex.names, hx])
    -- an error later on
    have later : ∀ {b : Option ℕ × St} {n : List String} {p : Option ℕ} {s1 : St}, Frame n s1 p b.2 → b.2.err = true →
        ∀ (q : Option ℕ) a, (if q = none ∨ b.1 = none then Res.ok (none, b.2)
          else (operandTy q b.1 b.2).bind fun c => if c.1 = none then .ok c else resultTy o c.1 c.2) = .ok a → a.2.err = true := by
      intro b n p s1 hf he q a ha
      split_ifs at ha with hn
      · cases ha; exact he
      · obtain ⟨c, h5, h6⟩ := bind_eq_ok ha
        have hc : c.2.err = true := by
          obtain ⟨tl, _, h5⟩ := bind_eq_ok h5
          obtain ⟨tr, _, h5⟩ := bind_eq_ok h5
          split_ifs at h5
          · cases h5; exact he
          · obtain ⟨_, _, h5⟩ := bind_eq_ok h5
            obtain ⟨_, _, h5⟩ := bind_eq_ok h5
            obtain ⟨_, e, h5⟩ := bind_eq_ok h5
            obtain ⟨_, _, _, _, _, rfl⟩ := setWidth_ok e
            cases h5; exact he
          · obtain ⟨_, _, h5⟩ := bind_eq_ok h5
            obtain ⟨_, _, h5⟩ := bind_eq_ok h5
            obtain ⟨_, e, h5⟩ := bind_eq_ok h5
            obtain ⟨_, _, _, _, _, rfl⟩ := setWidth_ok e
            cases h5; exact he
          · cases h5; rfl
          · cases h5; exact he
        split_ifs at h6
        · cases h6; exact hc
        · have key : ∀ (b : Bool) (x y : Option ℕ × St), x.2.err = true → y.2.err = true → (if b = true then x else y).2.err = true := by
            intro b x y hx hy
            cases b <;> simpa
          cases o <;> simp only [resultTy] at h6
          all_goals first
            | (cases h6; exact hc)
            | (obtain ⟨t, h1, h2⟩ := bind_eq_ok h6; cases h2; exact key _ _ _ hc rfl)
            | (obtain ⟨t, h1, h2⟩ := bind_eq_ok h6; cases h2; exact key _ _ _ rfl hc)
    rw [visit]
    rcases ihl hv hsl hkl with ⟨i, s1, t, h1, h2, h3, h4⟩ | ⟨hn, he⟩
    · have hf := frame_visit l hv h1
      have hv1 := hf.valid hv
      have henv := hf.env
      simp only at hf hv1 henv
      have hsr1 : Separate s1 r.names := by rw [Separate, henv]; exact hsr
      have hkr1 : Known s1 r.names := by unfold Known; rw [henv]; exact hkr
      have hctx : ∀ x ∈ r.names, s1.ctx x = s.ctx x := fun x hx => hf.ctx hv fun y hy _ =>
        hd _ (List.mem_map_of_mem hy) _ (List.mem_map_of_mem hx)
      rw [h1]
      simp only [Res.bind]
      rcases ihr hv1 hsr1 hkr1 with ⟨j, s2, t', g1, g2, g3, g4⟩ | ⟨hn, he⟩
      · have hg := frame_visit r hv1 g1
        simp only at hg
        rw [g1]
        simp only
        rw [if_neg (by simp)]
        have hij : i ≠ j := by
          rintro rfl
          rcases (hf.ptr i rfl).2 with a | ⟨x, hx, ex⟩
          · rcases (hg.ptr i rfl).2 with b | ⟨y, hy, ey⟩
            · have := (hf.ptr i rfl).1; omega
            · rw [henv] at ey
              have := hv _ _ ey
              omega
          · rcases (hg.ptr i rfl).2 with b | ⟨y, hy, ey⟩
            · have := (hf.ptr i rfl).1; omega
            · rw [henv] at ey
              exact hd _ (List.mem_map_of_mem hx) _ (List.mem_map_of_mem hy) (ex.trans ey.symm)
        have hi : s2.heap[i]? = some t := by
          rw [hg.same i (hf.ptr i rfl).1, h2]
          intro y hy ey
          rw [henv] at ey
          rcases (hf.ptr i rfl).2 with a | ⟨x, hx, ex⟩
          · have := hv _ _ ey; omega
          · exact hd _ (List.mem_map_of_mem hx) _ (List.mem_map_of_mem hy) (ex.trans ey.symm)
        have g3' : HasTy s.ctx r t' := hasTy_congr g3 hctx
        rcases operandTy_checked hij hi g2 with ⟨p, s3, u, e1, e2, e3, e4⟩ | ⟨hn, e1⟩
        · rw [e1]
          simp only
          rw [if_neg (by simp)]
          rcases resultTy_checked (o := o) e2 with ⟨p', s4, v, f1, f2, f3, f4⟩ | ⟨hn, f1⟩
          · rw [f1]
            exact .inl ⟨p', s4, v, rfl, f2, .bin h3 g3' e3 f3, by rw [f4, e4, g4, h4]⟩
          · rw [f1]
            refine .inr ⟨fun v hv => ?_, fun a ha => by cases ha; rfl⟩
            cases hv with
            | bin a b c d =>
              cases hasTy_unique h3 a
              cases hasTy_unique g3' b
              cases common_unique e3 c
              exact hn _ d
        · rw [e1]
          refine .inr ⟨fun v hv => ?_, fun a ha => by cases ha; rfl⟩
          cases hv with
          | bin a b c d =>
            cases hasTy_unique h3 a
            cases hasTy_unique g3' b
            exact hn _ c
      · refine .inr ⟨fun v hv => ?_, fun a ha => ?_⟩
        · cases hv with
          | bin _ b _ _ => exact hn _ (hasTy_congr b fun x hx => (hctx x hx).symm)
        · cases hb : visit r s1 with
          | ok b =>
            rw [hb] at ha
            exact later (frame_visit r hv1 hb) (he b hb) _ a ha
          | throw => rw [hb] at ha; cases ha
          | ub => rw [hb] at ha; cases ha
    · refine .inr ⟨fun v hv => ?_, fun a ha => ?_⟩
      · cases hv with | bin b _ _ _ => exact hn _ b
      · obtain ⟨b, hb, ha⟩ := bind_eq_ok ha
        obtain ⟨c, hc, ha⟩ := bind_eq_ok ha
        have hg := frame_visit r ((frame_visit l hv hb).valid hv) hc
        exact later hg (hg.err (he b hb)) _ a ha

/-! ### Statements with literals only -/

/-- The identifiers after a declaration; a name that is there keeps its type. -/
def declare (Γ : Ctx) (x : String) (t : Ty) : Ctx := fun y => if y = x then some ((Γ x).getD t) else Γ y

/-- Indices are unsigned literals. -/
def IndexOk (l : List Ex) : Prop := ∀ e ∈ l, ∃ c, e = .const c ∧ (constTy c).isUint = true

def OperandOk (Γ : Ctx) : Operand → Prop
  | .hw => True
  | .ref x ix => Γ x ≠ none ∧ IndexOk ix

def QuantumOk (Γ : Ctx) : Quantum → Prop
  | .call _ => True
  | .barrier qs => ∀ q ∈ qs, OperandOk Γ q
  | .reset q => OperandOk Γ q

/-- The type of a measurement: one bit, or as many as the register has. -/
inductive MeasureTy (Γ : Ctx) : Operand → Ty → Prop
  | hw : MeasureTy Γ .hw (.sized .bit 1)
  | elem {x : String} {ix : List Ex} : Γ x ≠ none → IndexOk ix → ix ≠ [] → MeasureTy Γ (.ref x ix) (.sized .bit 1)
  | whole {x : String} {k : Kind} {w : ℕ} : Γ x = some (.sized k w) → MeasureTy Γ (.ref x []) (.sized .bit w)

/-- The statements accepted, and the types of the identifiers after them. -/
inductive Accepts : Ctx → Stmt → Ctx → Prop
  | decl {Γ : Ctx} {ty : Decl} {t : Ty} (x : String) : ty.designatorOk = true → ty.resolve = .ok t → Accepts Γ (.decl ty x none) (declare Γ x t)
  | gate {Γ : Ctx} {ps qs : List String} {body : List Quantum} :
      (∀ q ∈ body, QuantumOk (qs.foldl (fun Γ x => declare Γ x (.sized .qubit 1)) (ps.foldl (fun Γ x => declare Γ x (.sized .float 64)) Γ)) q) →
      Accepts Γ (.gate ps qs body) Γ
  | assign {Γ : Ctx} {x : String} {ix : List Ex} {o : Operand} {t u : Ty} : Γ x = some t → IndexOk ix → MeasureTy Γ o u → t.fits u = true →
      Accepts Γ (.assign x ix (.measure o)) Γ
  | quantum {Γ : Ctx} {q : Quantum} : QuantumOk Γ q → Accepts Γ (.quantum q) Γ
  | other (Γ : Ctx) : Accepts Γ .other Γ

inductive AcceptsAll : Ctx → List Stmt → Ctx → Prop
  | nil (Γ : Ctx) : AcceptsAll Γ [] Γ
  | cons {Γ Γ' Γ'' : Ctx} {x : Stmt} {l : List Stmt} : Accepts Γ x Γ' → AcceptsAll Γ' l Γ'' → AcceptsAll Γ (x :: l) Γ''

def Literals (l : List Ex) : Prop := ∀ e ∈ l, ∃ c, e = .const c

def Operand.Literal : Operand → Prop
  | .hw => True
  | .ref _ ix => Literals ix

def Quantum.Literal : Quantum → Prop
  | .call as => Literals as
  | .barrier qs => ∀ q ∈ qs, q.Literal
  | .reset q => q.Literal

/-- A statement without expressions other than literals, and without branches. -/
def Straight : Stmt → Prop
  | .decl _ _ init => init = none
  | .gate _ _ body => ∀ q ∈ body, q.Literal
  | .assign _ ix rhs => Literals ix ∧ ∃ o, rhs = .measure o ∧ o.Literal
  | .quantum q => q.Literal
  | .ite _ _ _ => False
  | .other => True

/-- Only new types are added. -/
structure Ext (s s' : St) : Prop where
  env : s'.env = s.env
  heap : ∃ l, s'.heap = s.heap ++ l

theorem Ext.refl (s : St) : Ext s s := ⟨rfl, [], by simp⟩

theorem Ext.trans {s s1 s2 : St} (h : Ext s s1) (h' : Ext s1 s2) : Ext s s2 := by
  obtain ⟨l, hl⟩ := h.heap
  obtain ⟨l', hl'⟩ := h'.heap
  exact ⟨h'.env.trans h.env, l ++ l', by rw [hl', hl, List.append_assoc]⟩

theorem Ext.get {s s' : St} (h : Ext s s') {i : ℕ} (hi : i < s.heap.length) : s'.heap[i]? = s.heap[i]? := by
  obtain ⟨l, hl⟩ := h.heap
  rw [hl, List.getElem?_append_left hi]

theorem Ext.valid {s s' : St} (h : Ext s s') (hv : s.Valid) : s'.Valid := fun x p hx => by
  obtain ⟨l, hl⟩ := h.heap
  rw [h.env] at hx
  have := hv x p hx
  rw [hl, List.length_append]
  omega

theorem Ext.ctx {s s' : St} (h : Ext s s') (hv : s.Valid) : s'.ctx = s.ctx := by
  funext x
  unfold St.ctx
  rw [h.env]
  cases hl : s.env.lookup x with
  | none => rfl
  | some p => exact h.get (hv x p hl)

theorem ctx_none {s : St} (hv : s.Valid) {x : String} : s.ctx x = none ↔ s.env.lookup x = none := by
  unfold St.ctx
  cases hl : s.env.lookup x with
  | none => simp
  | some p => simpa using hv x p hl

theorem ctx_some {s : St} {x : String} {t : Ty} (h : s.ctx x = some t) : ∃ p, s.env.lookup x = some p ∧ s.heap[p]? = some t := by
  unfold St.ctx at h
  cases hl : s.env.lookup x with
  | none => rw [hl] at h; cases h
  | some p => rw [hl] at h; exact ⟨p, rfl, h⟩

theorem ext_alloc (t : Ty) (s : St) : Ext s (alloc t s).2 := ⟨rfl, [t], rfl⟩

theorem ext_err (s : St) (b : Bool) : Ext s { s with err := b } := ⟨rfl, [], by simp⟩

theorem checkIndices_lit {l : List Ex} (hl : Literals l) : ∀ s : St, ∃ s', checkIndices l s = .ok s' ∧ Ext s s' ∧
    (s'.err = true ↔ s.err = true ∨ ¬ IndexOk l) := by
  induction l with
  | nil => exact fun s => ⟨s, rfl, .refl s, by simp [IndexOk]⟩
  | cons e l ih =>
    intro s
    obtain ⟨c, rfl⟩ := hl e (by simp)
    have hd : deref (alloc (constTy c) s).2 (alloc (constTy c) s).1 = .ok (constTy c) := deref_some (by simp [alloc])
    have hk : IndexOk (.const c :: l) ↔ (constTy c).isUint = true ∧ IndexOk l := by simp [IndexOk]
    obtain ⟨s', h1, h2, h3⟩ := ih (fun e he => hl e (by simp [he]))
      (if (constTy c).isUint then (alloc (constTy c) s).2 else { (alloc (constTy c) s).2 with err := true })
    refine ⟨s', ?_, ?_, ?_⟩
    · rw [checkIndices, visit]
      simp only [Res.bind]
      rw [if_neg (by simp [alloc]), hd]
      exact h1
    · refine Ext.trans ?_ h2
      split_ifs
      · exact ext_alloc _ _
      · exact (ext_alloc _ _).trans (ext_err _ _)
    · rw [h3, hk]
      split_ifs with hc
      · simp [hc, alloc]
      · simp [hc]

theorem checkRef_lit {ix : List Ex} (hl : Literals ix) (x : String) {s : St} (hv : s.Valid) : ∃ s', checkRef x ix s = .ok s' ∧ Ext s s' ∧
    (s'.err = true ↔ s.err = true ∨ ¬ (s.ctx x ≠ none ∧ IndexOk ix)) := by
  obtain ⟨s', h1, h2, h3⟩ := checkIndices_lit hl (if s.env.lookup x = none then { s with err := true } else s)
  refine ⟨s', h1, ?_, ?_⟩
  · refine Ext.trans ?_ h2
    split_ifs
    · exact ext_err _ _
    · exact .refl _
  · rw [h3, Ne, ctx_none hv]
    split_ifs with h <;> simp [h]

theorem checkOperand_lit {o : Operand} (ho : o.Literal) {s : St} (hv : s.Valid) : ∃ s', checkOperand o s = .ok s' ∧ Ext s s' ∧
    (s'.err = true ↔ s.err = true ∨ ¬ OperandOk s.ctx o) := by
  cases o with
  | hw => exact ⟨s, rfl, .refl s, by simp [OperandOk]⟩
  | ref x ix => exact checkRef_lit ho x hv

theorem checkOperands_lit {l : List Operand} (hl : ∀ o ∈ l, o.Literal) : ∀ {s : St}, s.Valid → ∃ s', checkOperands l s = .ok s' ∧ Ext s s' ∧
    (s'.err = true ↔ s.err = true ∨ ¬ ∀ o ∈ l, OperandOk s.ctx o) := by
  induction l with
  | nil => exact fun {s} _ => ⟨s, rfl, .refl s, by simp⟩
  | cons o l ih =>
    intro s hv
    obtain ⟨s1, h1, h2, h3⟩ := checkOperand_lit (hl o (by simp)) hv
    obtain ⟨s2, g1, g2, g3⟩ := ih (fun o ho => hl o (by simp [ho])) (h2.valid hv)
    refine ⟨s2, by rw [checkOperands, h1]; exact g1, h2.trans g2, ?_⟩
    rw [g3, h3, h2.ctx hv]
    simp only [List.forall_mem_cons]
    tauto

theorem visitArgs_lit {l : List Ex} (hl : Literals l) : ∀ s : St, ∃ s', visitArgs l s = .ok s' ∧ Ext s s' ∧ s'.err = s.err := by
  induction l with
  | nil => exact fun s => ⟨s, rfl, .refl s, rfl⟩
  | cons e l ih =>
    intro s
    obtain ⟨c, rfl⟩ := hl e (by simp)
    obtain ⟨s', h1, h2, h3⟩ := ih (fun e he => hl e (by simp [he])) (alloc (constTy c) s).2
    exact ⟨s', h1, (ext_alloc _ _).trans h2, h3⟩

theorem quantum_lit {q : Quantum} (hq : q.Literal) {s : St} (hv : s.Valid) : ∃ s', quantum q s = .ok s' ∧ Ext s s' ∧
    (s'.err = true ↔ s.err = true ∨ ¬ QuantumOk s.ctx q) := by
  cases q with
  | call as =>
    obtain ⟨s', h1, h2, h3⟩ := visitArgs_lit hq s
    exact ⟨s', h1, h2, by simp [QuantumOk, h3]⟩
  | barrier qs => exact checkOperands_lit hq hv
  | reset q => exact checkOperand_lit hq hv

theorem quantums_lit {l : List Quantum} (hl : ∀ q ∈ l, q.Literal) : ∀ {s : St}, s.Valid → ∃ s', quantums l s = .ok s' ∧ Ext s s' ∧
    (s'.err = true ↔ s.err = true ∨ ¬ ∀ q ∈ l, QuantumOk s.ctx q) := by
  induction l with
  | nil => exact fun {s} _ => ⟨s, rfl, .refl s, by simp⟩
  | cons q l ih =>
    intro s hv
    obtain ⟨s1, h1, h2, h3⟩ := quantum_lit (hl q (by simp)) hv
    obtain ⟨s2, g1, g2, g3⟩ := ih (fun o ho => hl o (by simp [ho])) (h2.valid hv)
    refine ⟨s2, by rw [quantums, h1]; exact g1, h2.trans g2, ?_⟩
    rw [g3, h3, h2.ctx hv]
    simp only [List.forall_mem_cons]
    tauto

theorem indexOk_nil : IndexOk [] := by simp [IndexOk]

theorem visitMeasure_lit {o : Operand} (ho : o.Literal) {s : St} (hv : s.Valid) :
    (∃ i s' u, visitMeasure o s = .ok (some i, s') ∧ Ext s s' ∧ s'.heap[i]? = some u ∧ MeasureTy s.ctx o u ∧ s'.err = s.err) ∨
    (∀ u, ¬ MeasureTy s.ctx o u) ∧ ∀ a, visitMeasure o s = .ok a → a.2.err = true ∧ Ext s a.2 := by
  cases o with
  | hw => exact .inl ⟨_, _, _, rfl, ext_alloc _ _, by simp, .hw, rfl⟩
  | ref x ix =>
    obtain ⟨s1, h1, h2, h3⟩ := checkRef_lit ho x hv
    simp only [visitMeasure, h1, Res.bind]
    by_cases hok : s.ctx x ≠ none ∧ IndexOk ix
    · have he : s1.err = s.err := by
        rw [Bool.eq_iff_iff, h3]
        simp [hok.1, hok.2]
      by_cases hix : ix = []
      · subst hix
        rw [if_neg (by simp)]
        cases hc : s.ctx x with
        | none => exact absurd hc hok.1
        | some t =>
          have hc' := hc
          rw [← h2.ctx hv] at hc'
          obtain ⟨p, e1, e2⟩ := ctx_some hc'
          rw [e1]
          simp only [deref_some e2]
          cases t with
          | sized k w => exact .inl ⟨_, _, _, rfl, h2.trans (ext_alloc _ _), by simp, .whole hc, he⟩
          | bool =>
            refine .inr ⟨fun u h => ?_, fun a h => by cases h⟩
            cases h with
            | elem _ _ h => exact absurd rfl h
            | whole h => rw [hc] at h; cases h
          | duration =>
            refine .inr ⟨fun u h => ?_, fun a h => by cases h⟩
            cases h with
            | elem _ _ h => exact absurd rfl h
            | whole h => rw [hc] at h; cases h
      · rw [if_pos hix]
        exact .inl ⟨_, _, _, rfl, h2.trans (ext_alloc _ _), by simp, .elem hok.1 hok.2 hix, he⟩
    · have he : s1.err = true := h3.2 (.inr hok)
      refine .inr ⟨fun u h => ?_, fun a ha => ?_⟩
      · cases h with
        | elem a b _ => exact hok ⟨a, b⟩
        | whole a => exact hok ⟨by rw [a]; simp, indexOk_nil⟩
      · split_ifs at ha
        · cases ha; exact ⟨he, h2.trans (ext_alloc _ _)⟩
        · cases hl : s1.env.lookup x with
          | none => rw [hl] at ha; cases ha; exact ⟨rfl, h2.trans (ext_err _ _)⟩
          | some p =>
            rw [hl] at ha
            obtain ⟨t, _, ha⟩ := bind_eq_ok ha
            obtain ⟨w, _, ha⟩ := bind_eq_ok ha
            cases ha
            exact ⟨he, h2.trans (ext_alloc _ _)⟩

theorem measureTy_unique {Γ : Ctx} {o : Operand} {u v : Ty} (h : MeasureTy Γ o u) (h' : MeasureTy Γ o v) : u = v := by
  cases h with
  | hw => cases h'; rfl
  | elem _ _ hne => cases h' with
    | elem => rfl
    | whole => exact absurd rfl hne
  | whole w1 => cases h' with
    | elem _ _ hne => exact absurd rfl hne
    | whole w2 => rw [w1] at w2; cases w2; rfl

theorem emplace_heap (x : String) (t : Ty) (s : St) : (emplace x t s).heap = s.heap ++ [t] ∧ (emplace x t s).err = s.err := by
  unfold emplace
  split_ifs <;> exact ⟨rfl, rfl⟩

theorem emplace_valid (x : String) (t : Ty) {s : St} (hv : s.Valid) : (emplace x t s).Valid := by
  intro y p hy
  rw [(emplace_heap x t s).1, List.length_append, List.length_singleton]
  unfold emplace at hy
  split_ifs at hy with h
  · simp only [List.lookup_cons] at hy
    split at hy
    · cases hy; omega
    · have := hv y p hy; omega
  · have := hv y p hy; omega

theorem emplace_ctx (x : String) (t : Ty) {s : St} (hv : s.Valid) : (emplace x t s).ctx = declare s.ctx x t := by
  have hx : Ext s { s with heap := s.heap ++ [t] } := ⟨rfl, [t], rfl⟩
  funext y
  unfold emplace declare
  split_ifs with h hy hy
  · subst hy
    rw [(ctx_none hv).2 h]
    simp [St.ctx]
  · have := congrFun (hx.ctx hv) y
    rw [← this]
    unfold St.ctx
    rw [List.lookup_cons, beq_eq_false_iff_ne.2 hy]
  · subst hy
    rw [hx.ctx hv]
    cases hc : s.ctx y with
    | none => exact absurd ((ctx_none hv).1 hc) h
    | some u => rfl
  · rw [hx.ctx hv]

theorem emplaces {l : List String} {t : Ty} : ∀ {s : St}, s.Valid → (l.foldl (fun s x => emplace x t s) s).Valid ∧
    (l.foldl (fun s x => emplace x t s) s).ctx = l.foldl (fun Γ x => declare Γ x t) s.ctx ∧
    (l.foldl (fun s x => emplace x t s) s).err = s.err ∧ ∃ m, (l.foldl (fun s x => emplace x t s) s).heap = s.heap ++ m := by
  induction l with
  | nil => exact fun {s} hv => ⟨hv, rfl, rfl, [], by simp⟩
  | cons x l ih =>
    intro s hv
    obtain ⟨h1, h2, h3, m, h4⟩ := ih (emplace_valid x t hv)
    simp only [List.foldl_cons]
    refine ⟨h1, ?_, h3.trans (emplace_heap x t s).2, [t] ++ m, ?_⟩
    · rw [h2, emplace_ctx x t hv]
    · rw [h4, (emplace_heap x t s).1, List.append_assoc]

/-- What the check of a statement with literals only does. -/
theorem process_straight {x : Stmt} (hx : Straight x) {s : St} (hv : s.Valid) (he : s.err = false) :
    (∃ s', process x s = .ok s' ∧ s'.Valid ∧ s'.err = false ∧ Accepts s.ctx x s'.ctx) ∨
    (∀ Γ, ¬ Accepts s.ctx x Γ) ∧ ∀ s', process x s ≠ .ok s' := by
  have fin : ∀ {s' : St} {A : Prop}, (s'.err = true ↔ s.err = true ∨ ¬ A) → (A ∧ s'.err = false) ∨ (¬ A ∧ s'.err = true) := by
    intro s' A h
    rw [he] at h
    by_cases hA : A
    · refine .inl ⟨hA, ?_⟩
      cases hs : s'.err
      · rfl
      · simp [hs, hA] at h
    · exact .inr ⟨hA, h.2 (.inr hA)⟩
  cases x with
  | decl ty x init =>
    obtain rfl : init = none := hx
    rw [process, stmt]
    by_cases hd : ty.designatorOk = true
    · rw [if_pos hd]
      cases hr : ty.resolve with
      | ok t =>
        have e : (emplace x t s).err = false := by rw [(emplace_heap x t s).2, he]
        refine .inl ⟨emplace x t s, ?_, emplace_valid x t hv, e, ?_⟩
        · simp [Res.bind, checkInit, e]
        · rw [emplace_ctx x t hv]
          exact .decl x hd hr
      | throw =>
        refine .inr ⟨fun Γ h => ?_, fun s' h => by simp [Res.bind] at h⟩
        cases h with | decl _ _ h => rw [hr] at h; cases h
      | ub =>
        refine .inr ⟨fun Γ h => ?_, fun s' h => by simp [Res.bind] at h⟩
        cases h with | decl _ _ h => rw [hr] at h; cases h
    · rw [if_neg hd]
      refine .inr ⟨fun Γ h => ?_, fun s' h => by simp [Res.bind] at h⟩
      cases h with | decl _ h _ => exact hd h
  | gate ps qs body =>
    obtain ⟨v1, c1, e1, m1, k1⟩ := emplaces (l := ps) (t := .sized .float 64) hv
    obtain ⟨v2, c2, e2, m2, k2⟩ := emplaces (l := qs) (t := .sized .qubit 1) v1
    obtain ⟨s3, h1, h2, h3⟩ := quantums_lit (l := body) hx v2
    rw [e2, e1, c2, c1] at h3
    have hext : Ext s { s3 with env := s.env } := by
      obtain ⟨m3, k3⟩ := h2.heap
      exact ⟨rfl, m1 ++ (m2 ++ m3), by simp only [k3, k2, k1, List.append_assoc]⟩
    rw [process, stmt, h1]
    simp only [Res.bind]
    rcases fin h3 with ⟨ok, e⟩ | ⟨no, e⟩
    · refine .inl ⟨{ s3 with env := s.env }, by simp [e], hext.valid hv, e, ?_⟩
      rw [hext.ctx hv]
      exact .gate ok
    · refine .inr ⟨fun Γ h => ?_, fun s' h => by simp [e] at h⟩
      cases h with | gate h => exact no h
  | assign x ix rhs =>
    obtain ⟨hl, o, rfl, ho⟩ := hx
    obtain ⟨s1, h1, h2, h3⟩ := checkRef_lit hl x hv
    have v1 := h2.valid hv
    rw [process, stmt, h1]
    simp only [Res.bind, visitRhs]
    rcases fin h3 with ⟨ok, e⟩ | ⟨no, e⟩
    · have hm := visitMeasure_lit ho v1
      rw [h2.ctx hv] at hm
      rcases hm with ⟨i, s2, u, g1, g2, g3, g4, g5⟩ | ⟨hn, hg⟩
      · cases hc : s.ctx x with
        | none => exact absurd hc ok.1
        | some t =>
          have hc' := hc
          rw [← h2.ctx hv, ← g2.ctx v1] at hc'
          obtain ⟨p, l1, l2⟩ := ctx_some hc'
          rw [g1]
          simp only [l1, deref_some l2, deref_some g3]
          have hx2 := h2.trans g2
          by_cases hf : t.fits u = true
          · refine .inl ⟨s2, by simp [hf, g5, e], hx2.valid hv, by rw [g5, e], ?_⟩
            rw [hx2.ctx hv]
            exact .assign hc ok.2 g4 hf
          · refine .inr ⟨fun Γ h => ?_, fun s' h => by simp [hf] at h⟩
            cases h with
            | assign a b c d =>
              rw [hc] at a
              cases a
              rw [measureTy_unique g4 c] at hf
              exact hf d
      · refine .inr ⟨fun Γ h => ?_, fun s' h => ?_⟩
        · cases h with | assign _ _ c _ => exact hn _ c
        · cases hvm : visitMeasure o s1 with
          | throw => rw [hvm] at h; cases h
          | ub => rw [hvm] at h; cases h
          | ok a =>
            rw [hvm] at h
            obtain ⟨ea, xa⟩ := hg a hvm
            simp only at h
            cases hla : a.2.env.lookup x with
            | none => rw [hla] at h; simp at h
            | some p =>
              rw [hla] at h
              simp only at h
              cases hd1 : deref a.2 (some p) with
              | throw => rw [hd1] at h; cases h
              | ub => rw [hd1] at h; cases h
              | ok t =>
                rw [hd1] at h
                cases hd2 : deref a.2 a.1 with
                | throw => rw [hd2] at h; cases h
                | ub => rw [hd2] at h; cases h
                | ok t' =>
                  rw [hd2] at h
                  simp only at h
                  split_ifs at h with c1 c2; simp_all
    · refine .inr ⟨fun Γ h => ?_, fun s' h => ?_⟩
      · cases h with | assign a b _ _ => exact no ⟨by rw [a]; simp, b⟩
      · have err : ∀ a, visitMeasure o s1 = .ok a → a.2.err = true := by
          intro a ha
          rcases visitMeasure_lit ho v1 with ⟨i, s2, u, g1, g2, g3, g4, g5⟩ | ⟨_, hg⟩
          · rw [g1] at ha
            cases ha
            rw [g5, e]
          · exact (hg a ha).1
        cases hvm : visitMeasure o s1 with
        | throw => rw [hvm] at h; cases h
        | ub => rw [hvm] at h; cases h
        | ok a =>
          rw [hvm] at h
          have ea := err a hvm
          simp only at h
          cases hla : a.2.env.lookup x with
          | none => rw [hla] at h; simp at h
          | some p =>
            rw [hla] at h
            simp only at h
            cases hd1 : deref a.2 (some p) with
            | throw => rw [hd1] at h; cases h
            | ub => rw [hd1] at h; cases h
            | ok t =>
              rw [hd1] at h
              cases hd2 : deref a.2 a.1 with
              | throw => rw [hd2] at h; cases h
              | ub => rw [hd2] at h; cases h
              | ok t' =>
                rw [hd2] at h
                simp only at h
                split_ifs at h with c1 c2; simp_all
  | quantum q =>
    obtain ⟨s1, h1, h2, h3⟩ := quantum_lit (q := q) hx hv
    rw [process, stmt, h1]
    simp only [Res.bind]
    rcases fin h3 with ⟨ok, e⟩ | ⟨no, e⟩
    · refine .inl ⟨s1, by simp [e], h2.valid hv, e, ?_⟩
      rw [h2.ctx hv]
      exact .quantum ok
    · refine .inr ⟨fun Γ h => ?_, fun s' h => by simp [e] at h⟩
      cases h with | quantum h => exact no h
  | ite c t e => exact absurd hx (by simp [Straight])
  | other => exact .inl ⟨s, by simp [process, stmt, Res.bind, he], hv, he, .other _⟩

theorem declare_unique {Γ Γ1 Γ2 : Ctx} {x : Stmt} (h : Accepts Γ x Γ1) (h' : Accepts Γ x Γ2) : Γ1 = Γ2 := by
  cases h with
  | decl x a b => cases h' with | decl _ c d => rw [b] at d; cases d; rfl
  | gate _ => cases h'; rfl
  | assign => cases h'; rfl
  | quantum _ => cases h'; rfl
  | other => cases h'; rfl

theorem program_straight {l : List Stmt} (hl : ∀ x ∈ l, Straight x) : ∀ {s : St}, s.Valid → s.err = false →
    (∃ s', program l s = .ok s' ∧ s'.Valid ∧ s'.err = false ∧ AcceptsAll s.ctx l s'.ctx) ∨
    (∀ Γ, ¬ AcceptsAll s.ctx l Γ) ∧ ∀ s', program l s ≠ .ok s' := by
  induction l with
  | nil => exact fun {s} hv he => .inl ⟨s, rfl, hv, he, .nil _⟩
  | cons x l ih =>
    intro s hv he
    rcases process_straight (hl x (by simp)) hv he with ⟨s1, h1, h2, h3, h4⟩ | ⟨h1, h2⟩
    · rw [program, h1]
      simp only [Res.bind]
      rcases ih (fun y hy => hl y (by simp [hy])) h2 h3 with ⟨s2, g1, g2, g3, g4⟩ | ⟨g1, g2⟩
      · exact .inl ⟨s2, g1, g2, g3, .cons h4 g4⟩
      · refine .inr ⟨fun Γ h => ?_, g2⟩
        cases h with | cons a b => cases declare_unique h4 a; exact g1 _ b
    · refine .inr ⟨fun Γ h => ?_, fun s' h => ?_⟩
      · cases h with | cons a _ => exact h1 _ a
      · rw [program] at h
        obtain ⟨s1, e, _⟩ := bind_eq_ok h
        exact h2 s1 e

end MQT.QASM.TypeCheck

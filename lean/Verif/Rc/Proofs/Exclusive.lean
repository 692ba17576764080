import Verif.Rc.Proofs.Frame
/-!
# Where handles come from
-/

namespace Verif.Spec.World
variable {α : Type} {umax : Nat} {w : World α}

theorem get_newFam (w : World α) (F : Family) (k : Nat) : (w.newFam F).get k = w.get k := rfl
theorem get_newBuf (w : World α) (xs : List α) (k : Nat) : (w.newBuf xs).get k = w.get k := rfl
theorem get_store (w : World α) (b i : Nat) (x : Slot α) (k : Nat) : (w.store b i x).get k = w.get k := rfl

theorem halfPath_step (w : World α) (f : Nat) (p : List Side) (s : Side) : w.halfPath f p s = p ∨ w.halfPath f p s = s :: p := by
  cases s <;> simp only [halfPath] <;> split <;> simp

/-- The handle at `k'` after a call was there before, or was made by the call. -/
def New (w : World α) (op : Op α) (k' : Nat) (y : Hand) : Prop :=
  match y with
  | .shared f q => (w.fams.length ≤ f) ∨
      (∃ k0 q0, op.on = some k0 ∧ w.get k0 = some (.shared f q0) ∧ (q = q0 ∨ ∃ s, q = s :: q0)) ∨
      (∃ k0, op = .upgrade k0 ∧ w.get k0 = some (.weak f q) ∧ w.StrongAbove f q)
  | .weak f q => ∃ k0, (op = .downgrade k0 ∧ w.get k0 = some (.shared f q)) ∨ (op = .clone k0 ∧ w.get k0 = some (.weak f q))
  | _ => k' = w.hs.length ∨ op.on = some k'

theorem act_new (umax : Nat) (w : World α) (op : Op α) {k' : Nat} {y : Hand} (h : (w.act umax op).1.get k' = some y) :
    w.get k' = some y ∨ New w op k' y := by
  cases op with
  | rcNew xs =>
    simp only [act] at h; split at h
    · rcases get_push_iff.1 h with h | ⟨rfl, rfl⟩
      · exact .inl h
      · exact .inr (.inl (Nat.le_refl _))
    · exact .inl h
  | mutNew xs =>
    simp only [act] at h; split at h
    · rcases get_push_iff.1 h with h | ⟨rfl, rfl⟩
      · exact .inl h
      · exact .inr (.inl rfl)
    · exact .inl h
  | weakNew =>
    simp only [act] at h
    rcases get_push_iff.1 h with h | ⟨rfl, rfl⟩
    · exact .inl h
    · exact .inr (.inl rfl)
  | clone k =>
    simp only [act] at h; split at h
    · next f p hk =>
      rcases get_push_iff.1 h with h | ⟨rfl, rfl⟩
      · exact .inl h
      · exact .inr (.inr (.inl ⟨k, p, rfl, hk, .inl rfl⟩))
    · next f p hk =>
      rcases get_push_iff.1 h with h | ⟨rfl, rfl⟩
      · exact .inl h
      · exact .inr ⟨k, .inr ⟨rfl, hk⟩⟩
    · rcases get_push_iff.1 h with h | ⟨rfl, rfl⟩
      · exact .inl h
      · exact .inr (.inl rfl)
    · rcases get_push_iff.1 h with h | ⟨rfl, rfl⟩
      · exact .inl h
      · exact .inr (.inl rfl)
    · exact .inl h
  | cloneSide s k =>
    simp only [act] at h; split at h
    · next f p hk =>
      rcases get_push_iff.1 h with h | ⟨rfl, rfl⟩
      · exact .inl h
      · exact .inr (.inr (.inl ⟨k, p, rfl, hk, (halfPath_step w f p s).imp id fun e => ⟨s, e⟩⟩))
    · exact .inl h
  | splitOff s k =>
    simp only [act] at h; split at h
    · next f p hk =>
      cases s <;> simp only at h <;>
      · rcases get_push_iff.1 h with h | ⟨rfl, rfl⟩
        · rcases (get_put_iff hk).1 h with ⟨_, h⟩ | ⟨rfl, rfl⟩
          · exact .inl h
          · exact .inr (.inr (.inl ⟨_, p, rfl, hk, (halfPath_step w f p _).imp id fun e => ⟨_, e⟩⟩))
        · exact .inr (.inr (.inl ⟨k, p, rfl, hk, (halfPath_step w f p _).imp id fun e => ⟨_, e⟩⟩))
    · next b r hh hk =>
      rcases get_push_iff.1 h with h | ⟨rfl, rfl⟩
      · rcases (get_put_iff hk).1 h with ⟨_, h⟩ | ⟨rfl, rfl⟩
        · exact .inl h
        · exact .inr (.inr rfl)
      · exact .inr (.inl (by simp [put]))
    · exact .inl h
  | getMut k j a =>
    simp only [act] at h
    refine .inl ?_
    split at h
    · split at h
      · exact h
      · split at h <;> exact h
    · exact h
  | write k j a =>
    simp only [act] at h
    refine .inl ?_
    split at h
    · exact h
    · split at h
      · exact h
      · split at h <;> exact h
    · exact h
  | read k =>
    simp only [act] at h
    refine .inl ?_
    split at h
    · split at h <;> exact h
    · exact h
  | intoMut k =>
    simp only [act] at h; split at h
    · next f p hk =>
      split at h
      · exact .inl h
      · rcases (get_put_iff hk).1 h with ⟨_, h⟩ | ⟨rfl, rfl⟩
        · exact .inl h
        · exact .inr (.inr rfl)
    · exact .inl h
  | intoImmut k =>
    simp only [act] at h; split at h
    · next b r hh hk =>
      rcases (get_put_iff (w := w.newFam _) hk).1 h with ⟨_, h⟩ | ⟨rfl, rfl⟩
      · exact .inl h
      · exact .inr (.inl (Nat.le_refl _))
    · exact .inl h
  | downgrade k =>
    simp only [act] at h; split at h
    · next f p hk =>
      rcases get_push_iff.1 h with h | ⟨rfl, rfl⟩
      · exact .inl h
      · exact .inr ⟨k, .inl ⟨rfl, hk⟩⟩
    · exact .inl h
  | upgrade k =>
    simp only [act] at h; split at h
    · next f p hk =>
      split at h
      · next ha =>
        rcases get_push_iff.1 h with h | ⟨rfl, rfl⟩
        · exact .inl h
        · exact .inr (.inr (.inr ⟨k, rfl, hk, strongAbove_iff.1 ha⟩))
      · exact .inl h
    · exact .inl h
    · exact .inl h
  | drop k =>
    simp only [act] at h; split at h
    · exact .inl (get_del_iff.1 h).2
    · exact .inl h
  | intoIter k =>
    simp only [act] at h; split at h
    · next b r hh hk =>
      rcases (get_put_iff hk).1 h with ⟨_, h⟩ | ⟨rfl, rfl⟩
      · exact .inl h
      · exact .inr (.inr rfl)
    · exact .inl h
  | next e k =>
    simp only [act] at h; split at h
    · next b r hh hk =>
      split at h
      · rcases (get_put_iff hk).1 h with ⟨_, h⟩ | ⟨rfl, rfl⟩
        · exact .inl h
        · exact .inr (.inr rfl)
      · cases e <;> simp only at h <;>
        · split at h
          · rcases (get_put_iff (w := w.store _ _ _) hk).1 h with ⟨_, h⟩ | ⟨rfl, rfl⟩
            · exact .inl h
            · exact .inr (.inr rfl)
          · exact .inl h
    · exact .inl h
  | splitOffFrom k n =>
    simp only [act] at h; split at h
    · next b r hh hk =>
      split at h
      · rcases get_push_iff.1 h with h | ⟨rfl, rfl⟩
        · rcases (get_put_iff hk).1 h with ⟨_, h⟩ | ⟨rfl, rfl⟩
          · exact .inl h
          · exact .inr (.inr rfl)
        · exact .inr (.inl (by simp [put]))
      · exact .inl h
    · exact .inl h
  | splitOffTo k n =>
    simp only [act] at h; split at h
    · next b r hh hk =>
      split at h
      · rcases get_push_iff.1 h with h | ⟨rfl, rfl⟩
        · rcases (get_put_iff hk).1 h with ⟨_, h⟩ | ⟨rfl, rfl⟩
          · exact .inl h
          · exact .inr (.inr rfl)
        · exact .inr (.inl (by simp [put]))
      · exact .inl h
    · exact .inl h
  | intoParts k n =>
    simp only [act] at h; split at h
    · next b r hh hk =>
      split at h
      · split at h
        · rcases (get_put_iff hk).1 h with ⟨_, h⟩ | ⟨rfl, rfl⟩
          · exact .inl h
          · exact .inr (.inr rfl)
        · exact .inl (get_del_iff.1 h).2
      · exact .inl h
    · exact .inl h
  | nextPart e k =>
    simp only [act] at h; split at h
    · next b rest hh hk =>
      split at h
      · exact .inl h
      · rcases get_push_iff.1 h with h | ⟨rfl, rfl⟩
        · rcases (get_put_iff hk).1 h with ⟨_, h⟩ | ⟨rfl, rfl⟩
          · exact .inl h
          · exact .inr (.inr rfl)
        · exact .inr (.inl (by simp [put]))
    · exact .inl h

/-! ## Exclusive access lasts -/

theorem _root_.Verif.Spec.Related.symm {p q : List Side} (h : Related p q) : Related q p := Or.symm h

/-- A part of something unrelated is unrelated. -/
theorem unrelated_child {p q0 : List Side} {s : Side} (h : ¬ Related p q0) : ¬ Related p (s :: q0) := by
  rintro (h1 | h1)
  · rcases List.suffix_cons_iff.1 h1 with rfl | h1
    · exact h (.inr (List.suffix_cons _ _))
    · exact h (.inl h1)
  · exact h (.inr ((List.suffix_cons _ _).trans h1))

theorem suffix_total {a b c : List Side} (h1 : a <:+ c) (h2 : b <:+ c) : Related a b := by
  rcases Nat.le_total a.length b.length with h | h
  · exact .inl (List.suffix_of_suffix_length_le h1 h2 h)
  · exact .inr (List.suffix_of_suffix_length_le h2 h1 h)

/-- No `RcSlice` of the family is related to `p`. -/
def Gone (w : World α) (f : Nat) (p : List Side) : Prop :=
  f < w.fams.length ∧ ∀ k' q, w.get k' = some (.shared f q) → ¬ Related p q

theorem Gone.call {f : Nat} {p : List Side} (h : w.Gone f p) (umax : Nat) (op : Op α) : (w.call umax op).1.Gone f p := by
  obtain ⟨l, hl⟩ := call_fams umax w op
  refine ⟨by rw [hl, List.length_append]; have := h.1; omega, fun k' q hk => ?_⟩
  rcases act_new umax w op hk with h1 | h1
  · exact h.2 k' q h1
  · rcases h1 with h1 | ⟨k0, q0, _, h1, rfl | ⟨s, rfl⟩⟩ | ⟨k0, _, h1, k1, q1, h2, h3⟩
    · have := h.1; omega
    · exact h.2 _ _ h1
    · exact unrelated_child (h.2 _ _ h1)
    · rintro (h4 | h4)
      · exact h.2 _ _ h2 (suffix_total h4 h3)
      · exact h.2 _ _ h2 (.inr (h3.trans h4))

theorem Gone.run {f : Nat} {p : List Side} (umax : Nat) : ∀ (ops : List (Op α)) {w : World α}, w.Gone f p → (w.run umax ops).1.Gone f p := by
  intro ops
  induction ops with
  | nil => exact fun h => h
  | cons op ops ih => intro w h; exact ih (h.call umax op)

/-- `k` is the only `RcSlice` related to `p`, and no `WeakSlice` refers to `p` or below. -/
structure Alone (w : World α) (k f : Nat) (p : List Side) : Prop where
  here : w.get k = some (.shared f p)
  lt : f < w.fams.length
  strong : ¬ w.OtherStrong k f p
  weak : ¬ w.WeakBelow f p

theorem Alone.call {k f : Nat} {p : List Side} (h : w.Alone k f p) (umax : Nat) (op : Op α) (ho : op.on ≠ some k) :
    (w.call umax op).1.Alone k f p := by
  obtain ⟨l, hl⟩ := call_fams umax w op
  have hs : ∀ {k' q}, k' ≠ k → w.get k' = some (.shared f q) → ¬ Related p q := fun h1 h2 h3 => h.strong ⟨_, _, h1, h2, h3⟩
  have hw : ∀ {k' q}, w.get k' = some (.weak f q) → ¬ p <:+ q := fun h1 h2 => h.weak ⟨_, _, h1, h2⟩
  have hlt := h.lt
  refine ⟨call_get umax op h.here ho, by rw [hl, List.length_append]; omega, ?_, ?_⟩
  · rintro ⟨k', q, hne, hk, hr⟩
    rcases act_new umax w op hk with h1 | h1
    · exact hs hne h1 hr
    · rcases h1 with h1 | ⟨k0, q0, e, h1, h2⟩ | ⟨k0, rfl, h1, k1, q1, h2, h3⟩
      · omega
      · have hne0 : k0 ≠ k := fun e' => ho (by rw [e, e'])
        rcases h2 with rfl | ⟨s, rfl⟩
        · exact hs hne0 h1 hr
        · exact unrelated_child (hs hne0 h1) hr
      · have hw1 := hw h1
        rcases hr with hr | hr
        · exact hw1 hr
        · by_cases e : k1 = k
          · subst e
            rw [h.here] at h2; cases h2
            exact hw1 h3
          · exact hs e h2 (.inr (h3.trans hr))
  · rintro ⟨k', q, hk, hr⟩
    rcases act_new umax w op hk with h1 | ⟨k0, ⟨e, h1⟩ | ⟨_, h1⟩⟩
    · exact hw h1 hr
    · exact hs (fun e' => ho (by rw [e, e']; rfl)) h1 (.inl hr)
    · exact hw h1 hr

theorem Alone.run {k f : Nat} {p : List Side} (umax : Nat) : ∀ (ops : List (Op α)) {w : World α}, w.Alone k f p → Unused k ops →
    (w.run umax ops).1.Alone k f p := by
  intro ops
  induction ops with
  | nil => exact fun h _ => h
  | cons op ops ih =>
    intro w h hu
    exact ih (h.call umax op (hu op (List.mem_cons_self ..))) fun o ho => hu o (List.mem_cons_of_mem _ ho)

end Verif.Spec.World

namespace Verif.Spec.World
variable {α : Type}

/-- Families keep their numbers. -/
theorem run_fams (umax : Nat) (ops : List (Op α)) : ∀ w : World α, ∃ l, (w.run umax ops).1.fams = w.fams ++ l := by
  induction ops with
  | nil => exact fun w => ⟨[], by simp [run]⟩
  | cons op ops ih =>
    intro w
    obtain ⟨l, hl⟩ := call_fams umax w op
    obtain ⟨l', hl'⟩ := ih (w.call umax op).1
    exact ⟨l ++ l', by rw [← List.append_assoc, ← hl]; exact hl'⟩

/-- A handle that is not used stays as it is. -/
theorem run_get (umax : Nat) {k : Nat} {y : Hand} (ops : List (Op α)) : ∀ {w : World α}, w.get k = some y → Unused k ops →
    (w.run umax ops).1.get k = some y := by
  induction ops with
  | nil => exact fun h _ => h
  | cons op ops ih =>
    intro w h hu
    exact ih (call_get umax op h (hu op (List.mem_cons_self ..))) fun o ho => hu o (List.mem_cons_of_mem _ ho)

theorem look_congr {w w' : World α} {b : Nat} {r : Rng} (h : ∀ i, r.has i = true → w'.items b i = w.items b i) : w'.look b r = w.look b r := by
  have aux : ∀ l : List Nat, (∀ i ∈ l, w'.items b i = w.items b i) →
      l.filterMap (fun i => match w'.items b i with | .live a => some a | _ => none) =
        l.filterMap (fun i => match w.items b i with | .live a => some a | _ => none) := by
    intro l
    induction l with
    | nil => exact fun _ => rfl
    | cons i l ih =>
      intro hl
      simp only [List.filterMap_cons, hl i (List.mem_cons_self ..), ih fun j hj => hl j (List.mem_cons_of_mem _ hj)]
  refine aux _ fun i hi => ?_
  have : r.has i = true := by
    simp only [Rng.items, List.mem_range'_1] at hi
    simp [Rng.has]; omega
  exact h i this

end Verif.Spec.World

namespace Verif.Spec.World
variable {α : Type}

theorem look_shift {w w' : World α} {b b' : Nat} : ∀ {len off off' : Nat}, (∀ i, i < len → w'.items b' (off' + i) = w.items b (off + i)) →
    w'.look b' ⟨off', len⟩ = w.look b ⟨off, len⟩ := by
  intro len
  induction len with
  | zero => intro _ _ _; rfl
  | succ n ih =>
    intro off off' h
    have h0 := h 0 (by omega)
    have ih' := ih (off := off + 1) (off' := off' + 1) fun i hi => by
      have := h (i + 1) (by omega)
      rw [show off' + 1 + i = off' + (i + 1) by omega, show off + 1 + i = off + (i + 1) by omega]; exact this
    simp only [look, Rng.items, Nat.add_zero, List.range'_succ, List.filterMap_cons] at h0 ih' ⊢
    rw [h0, ih']

theorem look_get {w : World α} {b : Nat} : ∀ {len off i : Nat}, (∀ j, j < len → ∃ a, w.items b (off + j) = .live a) → i < len →
    ∃ a, w.items b (off + i) = .live a ∧ (w.look b ⟨off, len⟩)[i]? = some a := by
  intro len
  induction len with
  | zero => intro _ i _ h; omega
  | succ n ih =>
    intro off i h hi
    obtain ⟨a0, h0⟩ := h 0 (by omega)
    have hl : w.look b ⟨off, n + 1⟩ = a0 :: w.look b ⟨off + 1, n⟩ := by
      simp only [look, Rng.items, Nat.add_zero, List.range'_succ, List.filterMap_cons] at h0 ⊢
      rw [h0]
    rw [hl]
    cases i with
    | zero => exact ⟨a0, h0, rfl⟩
    | succ i =>
      obtain ⟨a, ha, hg⟩ := ih (off := off + 1) (i := i) (fun j hj => by
        rw [show off + 1 + j = off + (j + 1) by omega]; exact h (j + 1) (by omega)) (by omega)
      rw [show off + 1 + i = off + (i + 1) by omega] at ha
      exact ⟨a, ha, hg⟩

end Verif.Spec.World

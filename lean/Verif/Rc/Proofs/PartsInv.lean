import Verif.Rc.Proofs.PartsSim
/-!
# Histories with iterators over shared parts
-/

namespace Verif.Rc
open Verif.Spec (Side Slot Family Rng Hand World Op Obs End parts)
variable {α : Type} {umax : Nat} {zst : Bool}

/-- What is true between calls. -/
structure PInv (umax : Nat) (zst : Bool) (p : PState α) (w : World α) : Prop where
  base : ∃ ops, after umax zst ops = .ok p.st ∧ w = World.after umax zst ops
  its : ∀ j it, p.iter j = some it → (∃ fam q m f b, ItAt umax w fam q m f b it) ∧ it.deque.items.Nodup
  disj : ∀ j j' it it', j ≠ j' → p.iter j = some it → p.iter j' = some it' → ∀ k ∈ it.deque.items, k ∉ it'.deque.items

theorem PInv.rel {p : PState α} {w : World α} (I : PInv umax zst p w) : Rel umax p.st w [] := by
  obtain ⟨ops, h, rfl⟩ := I.base; exact Rel.of_after h

theorem PInv.init : PInv umax zst (PState.empty zst : PState α) (World.after umax zst []) where
  base := ⟨[], rfl, rfl⟩
  its j it h := by simp [PState.iter, PState.empty] at h
  disj j j' it it' _ h := by simp [PState.iter, PState.empty] at h

theorem after_run {s s' : State α} {ops more : List (Op α)} {os : List (Obs α)} (h : after umax zst ops = .ok s) (h' : run umax s more = .ok (s', os)) :
    after umax zst (ops ++ more) = .ok s' := by
  simp only [after] at h ⊢
  cases e : run umax ⟨Heap.empty zst, []⟩ ops with
  | error e' => rw [e] at h; cases h
  | ok q =>
    rw [e] at h; cases h
    rw [run_append e h']; rfl

/-! ## Lists of iterators -/

section
variable {p : PState α} {w w' : World α}

theorem mem_hidden {k : Nat} : k ∈ p.hidden ↔ ∃ j it, p.iter j = some it ∧ k ∈ it.deque.items := by
  simp only [PState.hidden, List.mem_flatMap]
  constructor
  · rintro ⟨o, ho, hk⟩
    cases o with
    | none => simp at hk
    | some it =>
      obtain ⟨j, hj⟩ := List.mem_iff_getElem?.1 ho
      exact ⟨j, it, by simp only [PState.iter, hj]; rfl, hk⟩
  · rintro ⟨j, it, hj, hk⟩
    refine ⟨some it, ?_, hk⟩
    simp only [PState.iter] at hj
    cases e : p.its[j]? with
    | none => rw [e] at hj; cases hj
    | some o => rw [e] at hj; cases hj; exact List.mem_iff_getElem?.2 ⟨j, e⟩

theorem iter_lt {j : Nat} {it : BinaryPartsIter Nat} (h : p.iter j = some it) : j < p.its.length := by
  apply Nat.lt_of_not_le; intro hle
  simp only [PState.iter] at h
  rw [List.getElem?_eq_none hle] at h; cases h

theorem iter_push_self (s : State α) (it : BinaryPartsIter Nat) : (PState.mk s (p.its ++ [some it])).iter p.its.length = some it := by
  simp [PState.iter]

theorem iter_push_some {s : State α} {it it' : BinaryPartsIter Nat} {j : Nat} (h : p.iter j = some it') : (PState.mk s (p.its ++ [some it])).iter j = some it' := by
  simp only [PState.iter]; rw [List.getElem?_append_left (iter_lt h)]; exact h

theorem iter_push_cases {s : State α} {it it' : BinaryPartsIter Nat} {j : Nat} (h : (PState.mk s (p.its ++ [some it])).iter j = some it') :
    p.iter j = some it' ∨ (j = p.its.length ∧ it' = it) := by
  rcases Nat.lt_trichotomy j p.its.length with hj | hj | hj
  · left; simp only [PState.iter] at h ⊢; rwa [List.getElem?_append_left hj] at h
  · subst hj; rw [iter_push_self] at h; cases h; exact .inr ⟨rfl, rfl⟩
  · simp only [PState.iter] at h; rw [List.getElem?_eq_none (by simp; omega)] at h; cases h

theorem iter_set_ne {s : State α} {o : Option (BinaryPartsIter Nat)} {j j' : Nat} (h : j' ≠ j) : (PState.mk s (p.its.set j o)).iter j' = p.iter j' := by
  simp only [PState.iter]; rw [List.getElem?_set_ne (Ne.symm h)]

theorem iter_set_self {s : State α} {o : Option (BinaryPartsIter Nat)} {j : Nat} {it : BinaryPartsIter Nat} (h : p.iter j = some it) :
    (PState.mk s (p.its.set j o)).iter j = o := by
  have := iter_lt h
  simp [PState.iter, this]

/-! ## Iterators not called -/

theorem ItAt.keep {it : BinaryPartsIter Nat} {fam m f b : Nat} {q : List Side} (I : ItAt umax w fam q m f b it)
    (hf : ∃ l, w'.fams = w.fams ++ l) (hg : ∀ k ∈ it.deque.items, ∀ y, w.get k = some y → w'.get k = some y) : ItAt umax w' fam q m f b it := by
  obtain ⟨i1, i2, i3, i4, i5, i8, i6⟩ := I
  obtain ⟨l, hl⟩ := hf
  have hh : ∀ t, (w'.halfPath fam · t) = (w.halfPath fam · t) := by
    intro t; funext q
    have e : w'.rangeOf fam q = w.rangeOf fam q := by simp only [World.rangeOf, World.fam_append hl i8]
    simp only [World.halfPath, e]
  refine ⟨i1, i2, i3, i4, i5, by rw [hl, List.length_append]; omega, ?_⟩
  rw [hh, hh]
  refine i6.frame fun k hk => ?_
  obtain ⟨p, _, e⟩ := i6.mem hk
  rw [hg k hk _ e, e]

/-- What every call does. -/
structure PStep (umax : Nat) (zst : Bool) (p : PState α) (w : World α) (x : POp α) (p' : PState α) (w' : World α) : Prop where
  inv : PInv umax zst p' w'
  runs : ∃ ops os, run umax p.st ops = .ok (p'.st, os) ∧ w' = (w.run umax ops).1 ∧
    ∀ op ∈ ops, ∀ k, op.on = some k → k ∈ p.hidden ∨ w.hs.length ≤ k ∨ x.on = some k
  fams : ∃ l, w'.fams = w.fams ++ l
  hid : ∀ k ∈ p'.hidden, k ∈ p.hidden ∨ w.hs.length ≤ k ∨ x.on = some k
  len : p.its.length ≤ p'.its.length
  keep : ∀ j it, p.iter j = some it → x ≠ .dropParts j → (∀ e, x ≠ .nextPart e j) →
    p'.iter j = some it ∧ ∀ fam q m f b, ItAt umax w fam q m f b it → ItAt umax w' fam q m f b it

theorem PStep.refl (I : PInv umax zst p w) (x : POp α) : PStep umax zst p w x p w :=
  ⟨I, ⟨[], [], rfl, rfl, by simp⟩, ⟨[], by simp⟩, fun _ h => .inl h, Nat.le_refl _, fun _ _ h _ _ => ⟨h, fun _ _ _ _ _ h => h⟩⟩

theorem base_trans {P : List (Op α) → Prop} (I : PInv umax zst p w) {s' : State α} (h : ∃ ops os, run umax p.st ops = .ok (s', os) ∧ w' = (w.run umax ops).1 ∧ P ops) :
    ∃ ops, after umax zst ops = .ok s' ∧ w' = World.after umax zst ops := by
  obtain ⟨ops, h1, rfl⟩ := I.base
  obtain ⟨more, os, h2, rfl, _⟩ := h
  exact ⟨ops ++ more, after_run h1 h2, (World.after_append ..).symm⟩

/-- Only handles outside iterators change. -/
theorem PInv.outside (I : PInv umax zst p w) (x : POp α) {s' : State α} (h : ∃ ops os, run umax p.st ops = .ok (s', os) ∧ w' = (w.run umax ops).1 ∧
      ∀ op ∈ ops, ∀ k, op.on = some k → k ∈ p.hidden ∨ w.hs.length ≤ k ∨ POp.on (x) = some k)
    (hf : ∃ l, w'.fams = w.fams ++ l) (hg : ∀ k ∈ p.hidden, ∀ y, w.get k = some y → w'.get k = some y) :
    PStep umax zst p w x { p with st := s' } w' := by
  have kp : ∀ j it, p.iter j = some it → ∀ fam q m f b, ItAt umax w fam q m f b it → ItAt umax w' fam q m f b it :=
    fun j it hj fam q m f b hi => hi.keep hf fun k hk y hy => hg k (mem_hidden.2 ⟨j, it, hj, hk⟩) y hy
  refine ⟨⟨base_trans I h, ?_, I.disj⟩, h, hf, fun _ h => .inl h, Nat.le_refl _, fun j it hj _ _ => ⟨hj, kp j it hj⟩⟩
  intro j it hj
  obtain ⟨⟨fam, q, m, f, b, hi⟩, hn⟩ := I.its j it hj
  exact ⟨⟨fam, q, m, f, b, kp j it hj _ _ _ _ _ hi⟩, hn⟩

/-- An iterator is added. -/
theorem PInv.added (I : PInv umax zst p w) (x : POp α) {s' : State α} (h : ∃ ops os, run umax p.st ops = .ok (s', os) ∧ w' = (w.run umax ops).1 ∧
      ∀ op ∈ ops, ∀ k, op.on = some k → k ∈ p.hidden ∨ w.hs.length ≤ k ∨ POp.on (x) = some k)
    (hf : ∃ l, w'.fams = w.fams ++ l) (hg : ∀ k ∈ p.hidden, ∀ y, w.get k = some y → w'.get k = some y)
    {it : BinaryPartsIter Nat} (hi : ∃ fam q m f b, ItAt umax w' fam q m f b it) (hn : it.deque.items.Nodup) (hd : ∀ k ∈ it.deque.items, k ∉ p.hidden) (hx : ∀ k ∈ it.deque.items, w.hs.length ≤ k ∨ x.on = some k) :
    PStep umax zst p w x ⟨s', p.its ++ [some it]⟩ w' := by
  have kp : ∀ j it, p.iter j = some it → ∀ fam q m f b, ItAt umax w fam q m f b it → ItAt umax w' fam q m f b it :=
    fun j it hj fam q m f b hi => hi.keep hf fun k hk y hy => hg k (mem_hidden.2 ⟨j, it, hj, hk⟩) y hy
  refine ⟨⟨base_trans I h, ?_, ?_⟩, h, hf, ?_, by simp, fun j it hj _ _ => ⟨iter_push_some hj, kp j it hj⟩⟩
  · intro j it' hj
    rcases iter_push_cases hj with hj | ⟨_, rfl⟩
    · obtain ⟨⟨fam, q, m, f, b, hi⟩, hn⟩ := I.its j it' hj
      exact ⟨⟨fam, q, m, f, b, kp j it' hj _ _ _ _ _ hi⟩, hn⟩
    · exact ⟨hi, hn⟩
  · intro j j' i1 i2 hne h1 h2 k hk hk'
    rcases iter_push_cases h1 with g1 | ⟨e1, f1⟩ <;> rcases iter_push_cases h2 with g2 | ⟨e2, f2⟩
    · exact I.disj j j' _ _ hne g1 g2 k hk hk'
    · exact hd k (f2 ▸ hk') (mem_hidden.2 ⟨_, _, g1, hk⟩)
    · exact hd k (f1 ▸ hk) (mem_hidden.2 ⟨_, _, g2, hk'⟩)
    · omega
  · intro k hk
    obtain ⟨j, i2, h1, h2⟩ := mem_hidden.1 hk
    rcases iter_push_cases h1 with g1 | ⟨_, rfl⟩
    · exact .inl (mem_hidden.2 ⟨j, i2, g1, h2⟩)
    · exact .inr (hx k h2)

/-- An iterator is replaced by a later state of itself. -/
theorem PInv.moved (I : PInv umax zst p w) {j : Nat} (e : End) {s' : State α} (h : ∃ ops os, run umax p.st ops = .ok (s', os) ∧ w' = (w.run umax ops).1 ∧
      ∀ op ∈ ops, ∀ k, op.on = some k → k ∈ p.hidden ∨ w.hs.length ≤ k ∨ POp.on (.nextPart e j : POp α) = some k)
    (hf : ∃ l, w'.fams = w.fams ++ l) {it it' : BinaryPartsIter Nat} (hj : p.iter j = some it)
    (hg : ∀ k, k ∉ it.deque.items → ∀ y, w.get k = some y → w'.get k = some y)
    (hi : ∃ fam q m f b, ItAt umax w' fam q m f b it') (hn : it'.deque.items.Nodup) (hd : ∀ k ∈ it'.deque.items, k ∈ it.deque.items ∨ w.hs.length ≤ k) :
    PStep umax zst p w (.nextPart e j) ⟨s', p.its.set j (some it')⟩ w' := by
  have kp : ∀ j' i2, j' ≠ j → p.iter j' = some i2 → ∀ fam q m f b, ItAt umax w fam q m f b i2 → ItAt umax w' fam q m f b i2 :=
    fun j' i2 hne hj' fam q m f b hi => hi.keep hf fun k hk y hy => hg k (fun h => I.disj j j' it i2 (Ne.symm hne) hj hj' k h hk) y hy
  have old : ∀ j' i2, j' ≠ j → p.iter j' = some i2 → ∀ k ∈ i2.deque.items, k ∉ it'.deque.items := by
    intro j' i2 hne hj' k hk hk'
    rcases hd k hk' with h | h
    · exact I.disj j j' it i2 (Ne.symm hne) hj hj' k h hk
    · obtain ⟨⟨fam, q, m, f, b, hi⟩, _⟩ := I.its j' i2 hj'
      have := hi.at_.lt hk
      omega
  refine ⟨⟨base_trans I h, ?_, ?_⟩, h, hf, ?_, by simp, ?_⟩
  · intro j' i2 hj'
    by_cases ej : j' = j
    · subst ej; rw [iter_set_self hj] at hj'; cases hj'; exact ⟨hi, hn⟩
    · rw [iter_set_ne ej] at hj'
      obtain ⟨⟨fam, q, m, f, b, hi⟩, hn⟩ := I.its j' i2 hj'
      exact ⟨⟨fam, q, m, f, b, kp j' i2 ej hj' _ _ _ _ _ hi⟩, hn⟩
  · intro j1 j2 i1 i2 hne h1 h2 k hk hk'
    by_cases e1 : j1 = j
    · subst e1; rw [iter_set_self hj] at h1; cases h1
      rw [iter_set_ne (Ne.symm hne)] at h2
      exact old j2 i2 (Ne.symm hne) h2 k hk' hk
    · rw [iter_set_ne e1] at h1
      by_cases e2 : j2 = j
      · subst e2; rw [iter_set_self hj] at h2; cases h2
        exact old j1 i1 e1 h1 k hk hk'
      · rw [iter_set_ne e2] at h2
        exact I.disj j1 j2 i1 i2 hne h1 h2 k hk hk'
  · intro k hk
    obtain ⟨j', i2, h1, h2⟩ := mem_hidden.1 hk
    by_cases ej : j' = j
    · subst ej; rw [iter_set_self hj] at h1; cases h1
      rcases hd k h2 with h | h
      · exact .inl (mem_hidden.2 ⟨_, _, hj, h⟩)
      · exact .inr (.inl h)
    · rw [iter_set_ne ej] at h1
      exact .inl (mem_hidden.2 ⟨j', i2, h1, h2⟩)
  · intro j' i2 hj' _ hx
    have ej : j' ≠ j := by rintro rfl; exact hx e rfl
    exact ⟨by rw [iter_set_ne ej]; exact hj', kp j' i2 ej hj'⟩

/-- An iterator goes away. -/
theorem PInv.gone (I : PInv umax zst p w) {j : Nat} {s' : State α} (h : ∃ ops os, run umax p.st ops = .ok (s', os) ∧ w' = (w.run umax ops).1 ∧
      ∀ op ∈ ops, ∀ k, op.on = some k → k ∈ p.hidden ∨ w.hs.length ≤ k ∨ POp.on (.dropParts j : POp α) = some k)
    (hf : ∃ l, w'.fams = w.fams ++ l) {it : BinaryPartsIter Nat} (hj : p.iter j = some it)
    (hg : ∀ k, k ∉ it.deque.items → ∀ y, w.get k = some y → w'.get k = some y) :
    PStep umax zst p w (.dropParts j) ⟨s', p.its.set j none⟩ w' := by
  have kp : ∀ j' i2, j' ≠ j → p.iter j' = some i2 → ∀ fam q m f b, ItAt umax w fam q m f b i2 → ItAt umax w' fam q m f b i2 :=
    fun j' i2 hne hj' fam q m f b hi => hi.keep hf fun k hk y hy => hg k (fun h => I.disj j j' it i2 (Ne.symm hne) hj hj' k h hk) y hy
  refine ⟨⟨base_trans I h, ?_, ?_⟩, h, hf, ?_, by simp, ?_⟩
  · intro j' i2 hj'
    by_cases ej : j' = j
    · subst ej; rw [iter_set_self hj] at hj'; cases hj'
    · rw [iter_set_ne ej] at hj'
      obtain ⟨⟨fam, q, m, f, b, hi⟩, hn⟩ := I.its j' i2 hj'
      exact ⟨⟨fam, q, m, f, b, kp j' i2 ej hj' _ _ _ _ _ hi⟩, hn⟩
  · intro j1 j2 i1 i2 hne h1 h2
    by_cases e1 : j1 = j
    · subst e1; rw [iter_set_self hj] at h1; cases h1
    · by_cases e2 : j2 = j
      · subst e2; rw [iter_set_self hj] at h2; cases h2
      · rw [iter_set_ne e1] at h1; rw [iter_set_ne e2] at h2
        exact I.disj j1 j2 i1 i2 hne h1 h2
  · intro k hk
    obtain ⟨j', i2, h1, h2⟩ := mem_hidden.1 hk
    by_cases ej : j' = j
    · subst ej; rw [iter_set_self hj] at h1; cases h1
    · rw [iter_set_ne ej] at h1
      exact .inl (mem_hidden.2 ⟨j', i2, h1, h2⟩)
  · intro j' i2 hj' hx _
    have ej : j' ≠ j := by rintro rfl; exact hx rfl
    exact ⟨by rw [iter_set_ne ej]; exact hj', kp j' i2 ej hj'⟩

/-! ## The calls -/

/-- The next part from this end, and how many have then been yielded at each end. -/
def nextIdx (e : End) (m f b : Nat) : Nat := match e with | .front => f | .back => 2 ^ m - 1 - b
def nextF (e : End) (f : Nat) : Nat := match e with | .front => f + 1 | .back => f
def nextB (e : End) (b : Nat) : Nat := match e with | .front => b | .back => b + 1

theorem Mv.runs' {s' : State α} {src : List Nat} (M : Mv umax p.st w src s' w') (h : ∀ k ∈ src, k ∈ p.hidden) (x : POp α) :
    ∃ ops os, run umax p.st ops = .ok (s', os) ∧ w' = (w.run umax ops).1 ∧
      ∀ op ∈ ops, ∀ k, op.on = some k → k ∈ p.hidden ∨ w.hs.length ≤ k ∨ x.on = some k := by
  obtain ⟨ops, os, e, f, u⟩ := M.runs
  refine ⟨ops, os, e, f, fun op ho k hk => ?_⟩
  rcases u op ho k hk with h' | h'
  · exact .inl (h k h')
  · exact .inr (.inl h')

theorem Mv.fams' {s' : State α} {src : List Nat} (M : Mv umax p.st w src s' w') : ∃ l, w'.fams = w.fams ++ l := ⟨[], by simp [M.fams]⟩

theorem pcall_base (I : PInv umax zst p w) {op : Op α} (h : ∀ k, op.on = some k → k ∉ p.hidden) :
    ∃ s', pcall umax p (.base op) = .ok ({ p with st := s' }, .base (w.call umax op).2) ∧ call umax p.st op = .ok (s', (w.call umax op).2) ∧
      PStep umax zst p w (.base op) { p with st := s' } (w.call umax op).1 := by
  obtain ⟨s', o, e, R', rfl⟩ := call_sim I.rel op
  refine ⟨s', ?_, e, I.outside _ ⟨[op], _, run_one e, rfl, fun op' ho k hk => .inr (.inr (by simp at ho; subst ho; exact hk))⟩ (World.call_fams umax w op) ?_⟩
  · simp only [pcall]
    rw [if_neg (by cases ho : op.on <;> simp [h _, ho])]
    simp only [e]; rfl
  · intro k hk y hy
    exact World.call_get umax op hy fun ho => h k ho hk

theorem pcall_base_invalid {op : Op α} {k : Nat} (h : op.on = some k) (hk : k ∈ p.hidden) :
    pcall umax p (.base op) = .ok (p, .invalid) := by
  simp only [pcall, h]; rw [if_pos (by simpa using hk)]

theorem pcall_intoParts (I : PInv umax zst p w) {k m fam : Nat} {q : List Side} (hk : w.get k = some (.shared fam q)) (hh : k ∉ p.hidden) (hu : 2 ^ m ≤ umax) :
    ∃ it, pcall umax p (.intoParts k (2 ^ m)) = .ok ({ p with its := p.its ++ [some it] }, .iter) ∧ it.deque.items = [k] ∧
      ItAt umax w fam q m 0 0 it ∧ PStep umax zst p w (.intoParts k (2 ^ m)) { p with its := p.its ++ [some it] } w := by
  obtain ⟨d, i, e⟩ := shared_strong I.rel hk
  have hn := BinaryPartsIter.new_pow k m (id : Nat → Nat) id
  have hit : (BinaryPartsIter.state id id m 0 0 (capOf m) k).deque.items = [k] := by simp [BinaryPartsIter.state, pend_zero]
  have hi : ItAt umax w fam q m 0 0 (BinaryPartsIter.state id id m 0 0 (capOf m) k) := by
    refine ⟨rfl, rfl, rfl, by simp, hu, I.rel.fam_lt (.inl hk), ?_⟩
    rw [hit, pend_zero]; simp only [Ats, List.map_cons, List.map_nil, hk]
  refine ⟨_, ?_, hit, hi, ?_⟩
  · simp only [pcall, e]
    rw [if_neg (by simp [hh]; omega)]
    simp only [hn]
  · refine I.added (w' := w) _ ⟨[], [], rfl, rfl, by simp⟩ ⟨[], by simp⟩ (fun k _ y hy => hy) ⟨fam, q, m, 0, 0, hi⟩ (by rw [hit]; simp) ?_ ?_
    · intro k' h'; rw [hit] at h'; simp at h'; subst h'; exact hh
    · intro k' h'; rw [hit] at h'; simp at h'; subst h'; exact .inr rfl

theorem pcall_intoParts_bad (I : PInv umax zst p w) {k n fam : Nat} {q : List Side} (hk : w.get k = some (.shared fam q)) (hh : k ∉ p.hidden) (hu : n ≤ umax)
    (hn : ¬ ∃ m, n = 2 ^ m) :
    ∃ s', pcall umax p (.intoParts k n) = .ok ({ p with st := s' }, .panicked) ∧ call umax p.st (.drop k) = .ok (s', (w.call umax (.drop k)).2) ∧
      PStep umax zst p w (.intoParts k n) { p with st := s' } (w.call umax (.drop k)).1 := by
  obtain ⟨d, i, e⟩ := shared_strong I.rel hk
  obtain ⟨s', o, e', R', rfl⟩ := call_sim I.rel (.drop k)
  have hnew : BinaryPartsIter.new k n = .error .panic := by
    rcases BinaryPartsIter.new_cases k n with ⟨h, _⟩ | ⟨_, h⟩
    · exact absurd h hn
    · exact h
  refine ⟨s', ?_, e', I.outside _ ⟨[.drop k], _, run_one e', rfl, by simp [POp.on, Op.on]⟩ (World.call_fams umax w _) ?_⟩
  · simp only [pcall, e]
    rw [if_neg (by simp [hh]; omega)]
    simp only [hnew, e']; rfl
  · intro k' hk' y hy
    exact World.call_get umax _ hy (by simp only [Op.on, ne_eq, Option.some.injEq]; rintro rfl; exact hh hk')

theorem pcall_intoParts_invalid (I : PInv umax zst p w) {k n : Nat} (h : (∀ fam q, w.get k ≠ some (.shared fam q)) ∨ k ∈ p.hidden ∨ umax < n) :
    pcall umax p (.intoParts k n) = .ok (p, .invalid) := by
  simp only [pcall]
  split
  · rename_i e
    obtain ⟨f, q, e'⟩ := strong_shared I.rel e
    rw [if_pos]
    rcases h with h | h | h
    · exact absurd e' (h _ _)
    · simp [h]
    · simp [h]
  · rfl

theorem pcall_next_done {it : BinaryPartsIter Nat} {j fam m f b : Nat} {q : List Side} (hj : p.iter j = some it)
    (hi : ItAt umax w fam q m f b it) (hfb : f + b = 2 ^ m) (e : End) : pcall umax p (.nextPart e j) = .ok (p, .none) := by
  have h1 : it.numYieldedFront + it.numYieldedBack = it.numParts := by rw [hi.num, hi.front, hi.back]; exact hfb
  have hd := BinaryPartsIter.next_done (m := PM α) (sp := splitOffK umax .L) umax false it h1
  have hd' := BinaryPartsIter.next_done (m := PM α) (sp := splitOffK umax .R) umax false it h1
  have hs : p.its.set j (some it) = p.its := by
    simp only [PState.iter] at hj
    cases e : p.its[j]? with
    | none => rw [e] at hj; cases hj
    | some o =>
      rw [e] at hj; cases hj
      obtain ⟨hlt, e⟩ := List.getElem?_eq_some_iff.1 e
      rw [← e]; exact List.set_getElem_self hlt
  cases e <;> simp only [pcall, hj, hd.1, hd'.2]
  · show Except.ok ((⟨p.st, p.its.set j (some it)⟩ : PState α), PObs.none) = _; rw [hs]
  · show Except.ok ((⟨p.st, p.its.set j (some it)⟩ : PState α), PObs.none) = _; rw [hs]

theorem pcall_next (I : PInv umax zst p w) {it : BinaryPartsIter Nat} {j fam m f b : Nat} {q : List Side} (hj : p.iter j = some it)
    (hi : ItAt umax w fam q m f b it) (hfb : f + b < 2 ^ m) (e : End) :
    ∃ k it' s' w' r, pcall umax p (.nextPart e j) = .ok (⟨s', p.its.set j (some it')⟩, .part k (w.fam fam).buf r.off r.len) ∧
      (rparts m (w.rangeOf fam q))[nextIdx e m f b]? = some r ∧
      Yield umax p.st w it fam q m (nextF e f) (nextB e b) (nextIdx e m f b) k it' s' w' ∧
      (∃ q', w'.get k = some (.shared fam q') ∧ w'.rangeOf fam q' = r) ∧
      k ∉ (PState.mk s' (p.its.set j (some it'))).hidden ∧
      PStep umax zst p w (.nextPart e j) ⟨s', p.its.set j (some it')⟩ w' := by
  have hnd := (I.its j it hj).2
  have key : ∃ k it' s' w', (match e with
        | .front => BinaryPartsIter.next (splitOffK umax .L) umax false it
        | .back => BinaryPartsIter.nextBack (splitOffK umax .R) umax false it : PM α _) p.st = .ok (.ok (some k, it'), s') ∧
      Yield umax p.st w it fam q m (nextF e f) (nextB e b) (nextIdx e m f b) k it' s' w' := by
    cases e
    · exact next_sim I.rel hi hnd hfb
    · exact nextBack_sim I.rel hi hnd hfb
  obtain ⟨k, it', s', w', e1, Y⟩ := key
  obtain ⟨q', g1, g2⟩ := Y.item
  have hfam : w'.fam fam = w.fam fam := by simp only [World.fam, Y.mv.fams]
  have hrng : w'.rangeOf fam q' = w.rangeOf fam q' := by simp only [World.rangeOf, hfam]
  have hst : PStep umax zst p w (.nextPart e j) ⟨s', p.its.set j (some it')⟩ w' :=
    I.moved e (Y.mv.runs' (fun k' h' => mem_hidden.2 ⟨j, it, hj, h'⟩) _) Y.mv.fams' hj (fun k' h' y hy => by rw [Y.mv.frame k' (World.get_lt hy) h']; exact hy)
      ⟨_, _, _, _, _, Y.now⟩ (List.nodup_cons.1 Y.nodup).2 (fun k' h' => Y.from_ k' (by simp [h']))
  refine ⟨k, it', s', w', w.rangeOf fam q', ?_, ?_, Y, ⟨q', g1, hrng⟩, ?_, hst⟩
  · have hp := place_ok Y.mv.rel g1
    rw [hfam, hrng] at hp
    cases e <;> simp only [pcall, hj] <;> simp only at e1 <;> simp only [e1, bind, Except.bind, noFault, pure, Except.pure, hp]
  · rw [rangeOf_parts, List.getElem?_map, g2]; rfl
  · intro hk
    obtain ⟨j', i2, h1, h2⟩ := mem_hidden.1 hk
    by_cases ej : j' = j
    · subst ej; rw [iter_set_self hj] at h1; cases h1
      exact (List.nodup_cons.1 Y.nodup).1 h2
    · rw [iter_set_ne ej] at h1
      rcases Y.from_ k (by simp) with h | h
      · exact I.disj j j' it i2 (Ne.symm ej) hj h1 k h h2
      · obtain ⟨⟨_, _, _, _, _, hi2⟩, _⟩ := I.its j' i2 h1
        have := hi2.at_.lt h2; omega

theorem pcall_asSlice (I : PInv umax zst p w) {it : BinaryPartsIter Nat} {j fam m f b : Nat} {q : List Side} (hj : p.iter j = some it)
    (hi : ItAt umax w fam q m f b it) :
    pcall umax p (.asSlice j) = .ok (p, .items (w.look (w.fam fam).buf
      ⟨cut m f (w.rangeOf fam q), cut m (2 ^ m - b) (w.rangeOf fam q) - cut m f (w.rangeOf fam q)⟩)) := by
  have hr := iterRange_ok I.rel hi
  have hx := iter_read I.rel hi
  simp only [pcall, hj, hr, bind, Except.bind]
  by_cases h : f + b = 2 ^ m
  · rw [if_pos h]
    have : 2 ^ m - b = f := by omega
    simp only [this, Nat.sub_self, pure, Except.pure]; rfl
  · rw [if_neg h]
    simp only [hx]; rfl

theorem pcall_len {it : BinaryPartsIter Nat} {j fam m f b : Nat} {q : List Side} (hj : p.iter j = some it)
    (hi : ItAt umax w fam q m f b it) : pcall umax p (.len j) = .ok (p, .count (2 ^ m - f - b)) := by
  simp only [pcall, hj]
  rw [BinaryPartsIter.len_eq _ (by rw [hi.num, hi.front, hi.back]; exact hi.le), hi.num, hi.front, hi.back]
  rfl

theorem pcall_clone (I : PInv umax zst p w) {it : BinaryPartsIter Nat} {j cap fam m f b : Nat} {q : List Side} (hj : p.iter j = some it)
    (hi : ItAt umax w fam q m f b it) (hc : it.deque.items.length ≤ cap) :
    ∃ it' s' w', pcall umax p (.cloneParts j cap) = .ok (⟨s', p.its ++ [some it']⟩, .iter) ∧ ItAt umax w' fam q m f b it' ∧ Mv umax p.st w it.deque.items s' w' ∧
      PStep umax zst p w (.cloneParts j cap) ⟨s', p.its ++ [some it']⟩ w' := by
  obtain ⟨s', w', e, M, hsame, a, l⟩ := cloneAll_sim fam it.deque.items I.rel hi.at_
  have hx : ∀ t, (w'.halfPath fam · t) = (w.halfPath fam · t) := fun t => funext fun q => halfPath_fams M.fams fam q t
  have hi' : ItAt umax w' fam q m f b { it with deque := ⟨List.range' w.hs.length it.deque.items.length, cap⟩ } :=
    ⟨hi.num, hi.front, hi.back, hi.le, hi.fits, by rw [M.fams]; exact hi.fam_lt, by rw [hx, hx]; exact a⟩
  refine ⟨{ it with deque := ⟨List.range' w.hs.length it.deque.items.length, cap⟩ }, s', w', ?_, hi', M, ?_⟩
  · simp only [pcall, hj, if_pos hc, e]; rfl
  · refine I.added _ (M.runs' (fun k' h' => mem_hidden.2 ⟨j, it, hj, h'⟩) _) M.fams' (fun k' _ y hy => by rw [hsame k' (World.get_lt hy)]; exact hy) ⟨_, _, _, _, _, hi'⟩ (List.nodup_range') ?_ ?_
    · intro k hk hh
      simp only [List.mem_range'_1] at hk
      obtain ⟨j', i2, h1, h2⟩ := mem_hidden.1 hh
      obtain ⟨⟨_, _, _, _, _, hi2⟩, _⟩ := I.its j' i2 h1
      have := hi2.at_.lt h2; omega
    · intro k hk
      simp only [List.mem_range'_1] at hk
      exact .inl hk.1

theorem pcall_clone_invalid {it : BinaryPartsIter Nat} {j cap : Nat} (hj : p.iter j = some it) (hc : cap < it.deque.items.length) :
    pcall umax p (.cloneParts j cap) = .ok (p, .invalid) := by
  simp only [pcall, hj]; rw [if_neg (by omega)]

theorem pcall_drop (I : PInv umax zst p w) {it : BinaryPartsIter Nat} {j : Nat} (hj : p.iter j = some it) :
    ∃ s', pcall umax p (.dropParts j) = .ok (⟨s', p.its.set j none⟩, .done) ∧
      run umax p.st (it.deque.items.map .drop) = .ok (s', (w.run umax (it.deque.items.map .drop)).2) ∧
      PStep umax zst p w (.dropParts j) ⟨s', p.its.set j none⟩ (w.run umax (it.deque.items.map .drop)).1 := by
  obtain ⟨s', e1, e2, R'⟩ := dropAll_sim it.deque.items I.rel
  refine ⟨s', ?_, e2, I.gone ⟨_, _, e2, rfl, ?_⟩ (World.run_fams umax _ w) hj ?_⟩
  · simp only [pcall, hj, e1]; rfl
  · intro op ho k hk
    obtain ⟨k', h', rfl⟩ := List.mem_map.1 ho
    cases hk
    exact .inl (mem_hidden.2 ⟨j, it, hj, h'⟩)
  · intro k hk y hy
    refine World.run_get umax _ hy ?_
    intro op ho
    obtain ⟨k', h', rfl⟩ := List.mem_map.1 ho
    simp only [Op.on, ne_eq, Option.some.injEq]
    rintro rfl; exact hk h'

theorem pcall_no_iter {j : Nat} (hj : p.iter j = none) (e : End) (cap : Nat) :
    pcall umax p (.nextPart e j) = .ok (p, .invalid) ∧ pcall umax p (.asSlice j) = .ok (p, .invalid) ∧ pcall umax p (.len j) = .ok (p, .invalid) ∧
      pcall umax p (.cloneParts j cap) = .ok (p, .invalid) ∧ pcall umax p (.dropParts j) = .ok (p, .invalid) := by
  simp only [pcall, hj, and_self]

/-- Every call succeeds and keeps the invariant. -/
theorem pcall_ok (I : PInv umax zst p w) (x : POp α) : ∃ p' o w', pcall umax p x = .ok (p', o) ∧ PStep umax zst p w x p' w' := by
  have noIter : ∀ j, p.iter j = none → ∀ e cap, (x = .nextPart e j ∨ x = .asSlice j ∨ x = .len j ∨ x = .cloneParts j cap ∨ x = .dropParts j) →
      ∃ p' o w', pcall umax p x = .ok (p', o) ∧ PStep umax zst p w x p' w' := by
    intro j hj e cap h
    have hs := pcall_no_iter (umax := umax) hj e cap
    refine ⟨p, .invalid, w, ?_, PStep.refl I _⟩
    rcases h with rfl | rfl | rfl | rfl | rfl
    · exact hs.1
    · exact hs.2.1
    · exact hs.2.2.1
    · exact hs.2.2.2.1
    · exact hs.2.2.2.2
  cases x with
  | base op =>
    by_cases h : ∀ k, op.on = some k → k ∉ p.hidden
    · obtain ⟨s', e, _, hs⟩ := pcall_base I h; exact ⟨_, _, _, e, hs⟩
    · have : ∃ k, op.on = some k ∧ k ∈ p.hidden := by
        apply Classical.byContradiction; intro hn; exact h fun k h1 h2 => hn ⟨k, h1, h2⟩
      obtain ⟨k, h1, h2⟩ := this
      exact ⟨_, _, _, pcall_base_invalid h1 h2, PStep.refl I _⟩
  | intoParts k n =>
    by_cases h : (∀ fam q, w.get k ≠ some (.shared fam q)) ∨ k ∈ p.hidden ∨ umax < n
    · exact ⟨_, _, _, pcall_intoParts_invalid I h, PStep.refl I _⟩
    · have h1 : ∃ fam q, w.get k = some (.shared fam q) := by
        apply Classical.byContradiction; intro hn; exact h (.inl fun fam q e => hn ⟨fam, q, e⟩)
      obtain ⟨fam, q, hk⟩ := h1
      have h2 : k ∉ p.hidden := fun h' => h (.inr (.inl h'))
      have h3 : n ≤ umax := Nat.le_of_not_lt fun h' => h (.inr (.inr h'))
      by_cases hm : ∃ m, n = 2 ^ m
      · obtain ⟨m, rfl⟩ := hm
        obtain ⟨it, e, _, _, hs⟩ := pcall_intoParts I hk h2 h3; exact ⟨_, _, _, e, hs⟩
      · obtain ⟨s', e, _, hs⟩ := pcall_intoParts_bad I hk h2 h3 hm; exact ⟨_, _, _, e, hs⟩
  | nextPart e j =>
    cases hj : p.iter j with
    | none => exact noIter j hj e 0 (.inl rfl)
    | some it =>
      obtain ⟨⟨fam, q, m, f, b, hi⟩, _⟩ := I.its j it hj
      by_cases hfb : f + b = 2 ^ m
      · exact ⟨_, _, _, pcall_next_done hj hi hfb e, PStep.refl I _⟩
      · obtain ⟨k, it', s', w', r, h1, _, _, _, _, hs⟩ := pcall_next I hj hi (by have := hi.le; omega) e
        exact ⟨_, _, _, h1, hs⟩
  | asSlice j =>
    cases hj : p.iter j with
    | none => exact noIter j hj .front 0 (.inr (.inl rfl))
    | some it =>
      obtain ⟨⟨fam, q, m, f, b, hi⟩, _⟩ := I.its j it hj
      exact ⟨_, _, _, pcall_asSlice I hj hi, PStep.refl I _⟩
  | len j =>
    cases hj : p.iter j with
    | none => exact noIter j hj .front 0 (.inr (.inr (.inl rfl)))
    | some it =>
      obtain ⟨⟨fam, q, m, f, b, hi⟩, _⟩ := I.its j it hj
      exact ⟨_, _, _, pcall_len hj hi, PStep.refl I _⟩
  | cloneParts j cap =>
    cases hj : p.iter j with
    | none => exact noIter j hj .front cap (.inr (.inr (.inr (.inl rfl))))
    | some it =>
      obtain ⟨⟨fam, q, m, f, b, hi⟩, _⟩ := I.its j it hj
      by_cases hc : it.deque.items.length ≤ cap
      · obtain ⟨it', s', w', h1, _, _, hs⟩ := pcall_clone I hj hi hc
        exact ⟨_, _, _, h1, hs⟩
      · exact ⟨_, _, _, pcall_clone_invalid hj (by omega), PStep.refl I _⟩
  | dropParts j =>
    cases hj : p.iter j with
    | none => exact noIter j hj .front 0 (.inr (.inr (.inr (.inr rfl))))
    | some it =>
      obtain ⟨s', h1, _, hs⟩ := pcall_drop I hj
      exact ⟨_, _, _, h1, hs⟩

/-! ## Histories -/

theorem _root_.Verif.Spec.World.run_len (umax : Nat) (ops : List (Op α)) : ∀ w : World α, w.hs.length ≤ (w.run umax ops).1.hs.length := by
  induction ops with
  | nil => intro w; exact Nat.le_refl _
  | cons op ops ih => intro w; exact Nat.le_trans (World.act_len umax w op) (ih (w.call umax op).1)

theorem prun_cons {x : POp α} {xs : List (POp α)} {p' : PState α} {o : PObs α} (h : pcall umax p x = .ok (p', o)) :
    prun umax p (x :: xs) = (prun umax p' xs).map fun q => (q.1, o :: q.2) := by
  simp only [prun, h, bind, Except.bind]
  cases prun umax p' xs <;> rfl

/-- What a list of calls does. -/
structure PSteps (umax : Nat) (zst : Bool) (p : PState α) (w : World α) (xs : List (POp α)) (p' : PState α) (w' : World α) : Prop where
  inv : PInv umax zst p' w'
  runs : ∃ ops os, run umax p.st ops = .ok (p'.st, os) ∧ w' = (w.run umax ops).1 ∧
    ∀ op ∈ ops, ∀ k, op.on = some k → k ∈ p.hidden ∨ w.hs.length ≤ k ∨ ∃ x ∈ xs, x.on = some k
  fams : ∃ l, w'.fams = w.fams ++ l
  hid : ∀ k ∈ p'.hidden, k ∈ p.hidden ∨ w.hs.length ≤ k ∨ ∃ x ∈ xs, x.on = some k

theorem prun_ok (xs : List (POp α)) : ∀ {p : PState α} {w : World α}, PInv umax zst p w →
    ∃ p' os w', prun umax p xs = .ok (p', os) ∧ PSteps umax zst p w xs p' w' := by
  induction xs with
  | nil => intro p w I; exact ⟨p, [], w, rfl, I, ⟨[], [], rfl, rfl, by simp⟩, ⟨[], by simp⟩, fun k h => .inl h⟩
  | cons x xs ih =>
    intro p w I
    obtain ⟨p1, o, w1, e1, S1⟩ := pcall_ok I x
    obtain ⟨p2, os, w2, e2, S2⟩ := ih S1.inv
    obtain ⟨o1, r1, a1, b1, c1⟩ := S1.runs
    obtain ⟨o2, r2, a2, b2, c2⟩ := S2.runs
    obtain ⟨l1, f1⟩ := S1.fams
    obtain ⟨l2, f2⟩ := S2.fams
    have hlen : w.hs.length ≤ w1.hs.length := by rw [b1]; exact World.run_len umax o1 w
    have lift : ∀ k, (k ∈ p1.hidden ∨ w1.hs.length ≤ k ∨ ∃ x ∈ xs, x.on = some k) → k ∈ p.hidden ∨ w.hs.length ≤ k ∨ ∃ y ∈ x :: xs, y.on = some k := by
      rintro k (h | h | ⟨y, hy, h⟩)
      · rcases S1.hid k h with h | h | h
        · exact .inl h
        · exact .inr (.inl h)
        · exact .inr (.inr ⟨x, by simp, h⟩)
      · exact .inr (.inl (Nat.le_trans hlen h))
      · exact .inr (.inr ⟨y, by simp [hy], h⟩)
    refine ⟨p2, o :: os, w2, by rw [prun_cons e1, e2]; rfl, S2.inv, ⟨o1 ++ o2, r1 ++ r2, run_append a1 a2, by rw [b2, b1, World.run_append], ?_⟩,
      ⟨l1 ++ l2, by rw [f2, f1, List.append_assoc]⟩, fun k hk => lift k (S2.hid k hk)⟩
    intro op ho k hk
    rcases List.mem_append.1 ho with ho | ho
    · rcases c1 op ho k hk with h | h | h
      · exact .inl h
      · exact .inr (.inl h)
      · exact .inr (.inr ⟨x, by simp, h⟩)
    · exact lift k (c2 op ho k hk)

theorem prun_append {p1 p2 : PState α} {a b : List (POp α)} {oa ob : List (PObs α)} (h1 : prun umax p a = .ok (p1, oa)) (h2 : prun umax p1 b = .ok (p2, ob)) :
    prun umax p (a ++ b) = .ok (p2, oa ++ ob) := by
  induction a generalizing p oa with
  | nil => simp only [prun, Except.ok.injEq, Prod.mk.injEq] at h1; obtain ⟨rfl, rfl⟩ := h1; exact h2
  | cons x a ih =>
    cases hc : pcall umax p x with
    | error e => simp only [prun, hc, bind, Except.bind] at h1; cases h1
    | ok q =>
      rw [List.cons_append, prun_cons hc]
      rw [prun_cons hc] at h1
      cases hr : prun umax q.1 a with
      | error e => rw [hr] at h1; cases h1
      | ok q2 =>
        rw [hr] at h1
        simp only [Except.map, Except.ok.injEq, Prod.mk.injEq] at h1
        obtain ⟨rfl, rfl⟩ := h1
        rw [ih (oa := q2.2) hr]; rfl

theorem pafter_of_run {ops : List (POp α)} {p : PState α} {os : List (PObs α)} (h : prun umax (PState.empty zst) ops = .ok (p, os)) : pafter umax zst ops = .ok p := by
  simp only [pafter, h]; rfl

theorem pafter_run {ops : List (POp α)} {p : PState α} (h : pafter umax zst ops = .ok p) : ∃ os, prun umax (PState.empty zst) ops = .ok (p, os) := by
  simp only [pafter] at h
  cases e : prun umax (PState.empty zst) ops with
  | error e' => rw [e] at h; cases h
  | ok q => rw [e] at h; cases h; exact ⟨q.2, rfl⟩

theorem PInv.of_after {ops : List (POp α)} {p : PState α} (h : pafter umax zst ops = .ok p) : ∃ w, PInv umax zst p w := by
  obtain ⟨p', os, w, e, S⟩ := prun_ok (umax := umax) ops (PInv.init (α := α) (umax := umax) (zst := zst))
  rw [pafter_of_run e] at h; cases h
  exact ⟨w, S.inv⟩

theorem pafter_append {ops more : List (POp α)} {p p' : PState α} {os : List (PObs α)} (h : pafter umax zst ops = .ok p) (h' : prun umax p more = .ok (p', os)) :
    pafter umax zst (ops ++ more) = .ok p' := by
  obtain ⟨os', e⟩ := pafter_run h
  exact pafter_of_run (prun_append e h')

theorem pafter_split {ops more : List (POp α)} {p p' : PState α} (h : pafter umax zst ops = .ok p) (h' : pafter umax zst (ops ++ more) = .ok p') :
    ∃ os, prun umax p more = .ok (p', os) := by
  obtain ⟨w, I⟩ := PInv.of_after h
  obtain ⟨p2, os, w2, e, S⟩ := prun_ok (umax := umax) more I
  rw [pafter_append h e] at h'; cases h'
  exact ⟨os, e⟩

theorem panswer_of {ops : List (POp α)} {p : PState α} (h : pafter umax zst ops = .ok p) (op : POp α) : panswer umax zst ops op = (pcall umax p op).map (·.2) := by
  simp only [panswer, h]; rfl

end
end Verif.Rc

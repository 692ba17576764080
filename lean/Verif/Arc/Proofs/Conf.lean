import Verif.Arc.Proofs.GF
/-!
# Configurations: the cases of a step and of a start
-/

namespace Verif.Arc
open Verif.Spec (Side Slot Family Rng End)
open Verif.Rc
variable {α : Type}

/-- The ways in which a call makes a step. -/
inductive CStep (c : Conf α) (i : Nat) : Conf α → Prop
  | none (h : c.calls[i]? = none) : CStep c i c
  | task (cl : Call α) (t : ATask) (ts : List ATask) (a' : Arena α) (new : List ATask) (hi : c.calls[i]? = some cl)
      (ht : cl.tasks = t :: ts) (e : ataskStep c.a t = .ok (a', new)) : CStep c i (c.after i a' { cl with tasks := new ++ ts } [])
  | pc (cl : Call α) (a' : Arena α) (n : Next α) (hi : c.calls[i]? = some cl) (ht : cl.tasks = []) (e : pcStep c.a cl.pc = .ok (a', n)) :
      CStep c i (c.after i a' { cl with pc := n.pc, tasks := n.tasks } n.push)

theorem CStep.of {c c' : Conf α} {i : Nat} (h : c.step i = .ok c') : CStep c i c' := by
  rcases Conf.step_cases h with ⟨h1, rfl⟩ | ⟨cl, a', cl', new, hi, e, rfl⟩
  · exact .none h1
  · simp only [callStep] at e
    split at e
    · next t ts ht =>
      obtain ⟨⟨a2, new2⟩, e1, e2⟩ := bind_ok e
      cases pure_ok e2
      exact .task cl t ts _ _ hi ht e1
    · next ht =>
      obtain ⟨⟨a2, n⟩, e1, e2⟩ := bind_ok e
      cases pure_ok e2
      exact .pc cl _ _ hi ht e1

/-- The ways in which a call starts. -/
inductive SStep (c : Conf α) : Op α → Conf α → Prop
  | new xs : SStep c (.new xs) (c.plain (.new xs) (.new xs))
  | mutNew xs : SStep c (.mutNew xs) (c.plain (.mutNew xs) (.mutNew xs))
  | weakNew : SStep c .weakNew { c with hs := c.hs ++ [some ⟨.weak none none, false⟩] }
  | clone k d g (hk : c.get k = some ⟨.strong d g, false⟩) : SStep c (.clone k) (c.shared (.clone k) k (.cl1 d g))
  | cloneW k d g b (hk : c.get k = some ⟨.weak d g, b⟩) : SStep c (.clone k) (c.shared (.clone k) k (.wc d g))
  | cloneSide s k d g (hk : c.get k = some ⟨.strong d g, false⟩) : SStep c (.cloneSide s k) (c.shared (.cloneSide s k) k (.wait d g s))
  | getMut k d g (hk : c.get k = some ⟨.strong d g, false⟩) (hb : c.borrowed k = false) :
      SStep c (.getMut k) (c.taking (.getMut k) k (.gm0 d g))
  | endMut k d g (hk : c.get k = some ⟨.strong d g, true⟩) : SStep c (.endMut k) { c with hs := c.hs.set k (some ⟨.strong d g, false⟩) }
  | intoMut k d g (hk : c.get k = some ⟨.strong d g, false⟩) (hb : c.borrowed k = false) :
      SStep c (.intoMut k) (c.taking (.intoMut k) k (.im0 d g))
  | intoImmut k r b (hk : c.get k = some ⟨.uniq r, b⟩) (hb : c.borrowed k = false) :
      SStep c (.intoImmut k) (c.taking (.intoImmut k) k (.immut r))
  | splitOff s k r b (hk : c.get k = some ⟨.uniq r, b⟩) (hb : c.borrowed k = false) :
      SStep c (.splitOff s k) (c.taking (.splitOff s k) k (.split s r))
  | next en k r b (hk : c.get k = some ⟨.uniq r, b⟩) (hb : c.borrowed k = false) :
      SStep c (.next en k) (c.taking (.next en k) k (.nxt en r))
  | cut en n k r b (hk : c.get k = some ⟨.uniq r, b⟩) (hb : c.borrowed k = false) :
      SStep c (.cut en n k) (c.taking (.cut en n k) k (.cut en n r))
  | downgrade k d g (hk : c.get k = some ⟨.strong d g, false⟩) : SStep c (.downgrade k) (c.shared (.downgrade k) k (.dg0 d g))
  | upgrade k d g b (hk : c.get k = some ⟨.weak d g, b⟩) : SStep c (.upgrade k) (c.shared (.upgrade k) k (.up d))
  | dropS k d g (hk : c.get k = some ⟨.strong d g, false⟩) (hb : c.borrowed k = false) :
      SStep c (.drop k) (c.taking (.drop k) k (.done .unit) [.slice d g])
  | dropW k d g b (hk : c.get k = some ⟨.weak d g, b⟩) (hb : c.borrowed k = false) :
      SStep c (.drop k) (c.taking (.drop k) k (.wd g))
  | dropU k r b (hk : c.get k = some ⟨.uniq r, b⟩) (hb : c.borrowed k = false) :
      SStep c (.drop k) (c.taking (.drop k) k (.done .unit) [.base (.dropReg r)])

theorem SStep.of {c c' : Conf α} {op : Op α} (h : c.start op = some c') : SStep c op c' := by
  cases op with
  | new xs => cases h; exact .new xs
  | mutNew xs => cases h; exact .mutNew xs
  | weakNew => cases h; exact .weakNew
  | clone k =>
    simp only [Conf.start] at h
    split at h <;> cases h
    · next hk => exact .clone k _ _ hk
    · next hk => exact .cloneW k _ _ _ hk
  | cloneSide s k =>
    simp only [Conf.start] at h
    split at h <;> cases h
    next hk => exact .cloneSide s k _ _ hk
  | getMut k =>
    simp only [Conf.start] at h
    split at h
    · next hk =>
      split at h <;> cases h
      next hb => exact .getMut k _ _ hk (by simpa using hb)
    · cases h
  | endMut k =>
    simp only [Conf.start] at h
    split at h <;> cases h
    next hk => exact .endMut k _ _ hk
  | intoMut k =>
    simp only [Conf.start] at h
    split at h
    · next hk =>
      split at h <;> cases h
      next hb => exact .intoMut k _ _ hk (by simpa using hb)
    · cases h
  | intoImmut k =>
    simp only [Conf.start] at h
    split at h
    · next hk =>
      split at h <;> cases h
      next hb => exact .intoImmut k _ _ hk (by simpa using hb)
    · cases h
  | splitOff s k =>
    simp only [Conf.start] at h
    split at h
    · next hk =>
      split at h <;> cases h
      next hb => exact .splitOff s k _ _ hk (by simpa using hb)
    · cases h
  | next en k =>
    simp only [Conf.start] at h
    split at h
    · next hk =>
      split at h <;> cases h
      next hb => exact .next en k _ _ hk (by simpa using hb)
    · cases h
  | cut en n k =>
    simp only [Conf.start] at h
    split at h
    · next hk =>
      split at h <;> cases h
      next hb => exact .cut en n k _ _ hk (by simpa using hb)
    · cases h
  | downgrade k =>
    simp only [Conf.start] at h
    split at h <;> cases h
    next hk => exact .downgrade k _ _ hk
  | upgrade k =>
    simp only [Conf.start] at h
    split at h <;> cases h
    next hk => exact .upgrade k _ _ _ hk
  | drop k =>
    simp only [Conf.start] at h
    split at h
    · next hk =>
      split at h <;> cases h
      next hb => exact .dropS k _ _ hk (by simpa using hb)
    · next hk =>
      split at h <;> cases h
      next hb => exact .dropW k _ _ _ hk (by simpa using hb)
    · next hk =>
      split at h <;> cases h
      next hb => exact .dropU k _ _ hk (by simpa using hb)
    · cases h

section
variable {c : Conf α}

/-! ## What is in the tables afterwards -/

theorem after_calls {i j : Nat} {cl cl' clj : Call α} {a' : Arena α} {new : List Ent} (hi : c.calls[i]? = some cl)
    (hj : (c.after i a' cl' new).calls[j]? = some clj) :
    (j = i ∧ clj = { cl' with out := cl'.out ++ List.range' c.hs.length new.length }) ∨ (j ≠ i ∧ c.calls[j]? = some clj) := by
  have hlen := (List.getElem?_eq_some_iff.1 hi).1
  by_cases hij : j = i
  · subst hij
    simp only [Conf.after, List.getElem?_set_self hlen, Option.some.injEq] at hj
    exact .inl ⟨rfl, hj.symm⟩
  · have hj0 : (c.calls.set i _)[j]? = some clj := hj
    rw [List.getElem?_set_ne (fun h => hij h.symm)] at hj0
    exact .inr ⟨hij, hj0⟩

theorem after_get {i k : Nat} {cl' : Call α} {a' : Arena α} {new : List Ent} {e : Ent}
    (h : (c.after i a' cl' new).get k = some e) : c.get k = some e ∨ c.hs.length ≤ k ∧ e ∈ new := Conf.get_append_new h

theorem after_get_old {i k : Nat} {cl' : Call α} {a' : Arena α} {new : List Ent} {e : Ent}
    (h : c.get k = some e) : (c.after i a' cl' new).get k = some e := Conf.get_append h

theorem after_bh {i : Nat} (clj cl' : Call α) (a' : Arena α) (new : List Ent) :
    clj.bh c = none ∨ clj.bh (c.after i a' cl' new) = clj.bh c := by
  simp only [Call.bh]
  cases clj.borrow with
  | none => exact .inl rfl
  | some k =>
    cases hk : c.get k with
    | none => exact .inl (by simp [hk])
    | some en => exact .inr (by simp [hk, after_get_old hk])

theorem plain_calls {op : Op α} {pc : Pc α} {j : Nat} {clj : Call α} (h : (c.plain op pc).calls[j]? = some clj) :
    c.calls[j]? = some clj ∨ (j = c.calls.length ∧ clj = { op, pc }) := by
  have h' : (c.calls ++ [{ op, pc }])[j]? = some clj := h
  by_cases hlt : j < c.calls.length
  · rw [List.getElem?_append_left hlt] at h'; exact .inl h'
  · rw [List.getElem?_append_right (by omega)] at h'
    cases hn : j - c.calls.length with
    | zero => rw [hn] at h'; simp at h'; exact .inr ⟨by omega, h'.symm⟩
    | succ m => rw [hn] at h'; simp at h'

theorem shared_calls {op : Op α} {pc : Pc α} {k j : Nat} {clj : Call α} (h : (c.shared op k pc).calls[j]? = some clj) :
    c.calls[j]? = some clj ∨ (j = c.calls.length ∧ clj = { op, pc, borrow := some k, on := c.node k }) := by
  have h' : (c.calls ++ [{ op, pc, borrow := some k, on := c.node k }])[j]? = some clj := h
  by_cases hlt : j < c.calls.length
  · rw [List.getElem?_append_left hlt] at h'; exact .inl h'
  · rw [List.getElem?_append_right (by omega)] at h'
    cases hn : j - c.calls.length with
    | zero => rw [hn] at h'; simp at h'; exact .inr ⟨by omega, h'.symm⟩
    | succ m => rw [hn] at h'; simp at h'

theorem taking_calls {op : Op α} {pc : Pc α} {ts : List ATask} {k j : Nat} {clj : Call α} (h : (c.taking op k pc ts).calls[j]? = some clj) :
    c.calls[j]? = some clj ∨ (j = c.calls.length ∧ clj = { op, pc, tasks := ts, on := c.node k }) := by
  have h' : (c.calls ++ [{ op, pc, tasks := ts, on := c.node k }])[j]? = some clj := h
  by_cases hlt : j < c.calls.length
  · rw [List.getElem?_append_left hlt] at h'; exact .inl h'
  · rw [List.getElem?_append_right (by omega)] at h'
    cases hn : j - c.calls.length with
    | zero => rw [hn] at h'; simp at h'; exact .inr ⟨by omega, h'.symm⟩
    | succ m => rw [hn] at h'; simp at h'

theorem taking_get {op : Op α} {pc : Pc α} {ts : List ATask} {k k2 : Nat} {e e2 : Ent} (hk : c.get k = some e)
    (h : (c.taking op k pc ts).get k2 = some e2) : k2 ≠ k ∧ c.get k2 = some e2 := by
  simp only [Conf.get, Conf.taking] at h ⊢
  by_cases hkk : k2 = k
  · subst hkk
    rw [List.getElem?_set_self (c.get_lt hk)] at h; cases h
  · rw [List.getElem?_set_ne (fun h => hkk h.symm)] at h; exact ⟨hkk, h⟩

theorem taking_get_old {op : Op α} {pc : Pc α} {ts : List ATask} {k k2 : Nat} {e2 : Ent} (hk : k2 ≠ k)
    (h : c.get k2 = some e2) : (c.taking op k pc ts).get k2 = some e2 := by
  simp only [Conf.get, Conf.taking] at h ⊢
  rw [List.getElem?_set_ne (fun h => hk h.symm)]; exact h

theorem endMut_get {k k2 d g : Nat} {e2 : Ent} (hk : c.get k = some ⟨.strong d g, true⟩)
    (h : Conf.get { c with hs := c.hs.set k (some ⟨.strong d g, false⟩) } k2 = some e2) :
    (k2 = k ∧ e2 = ⟨.strong d g, false⟩) ∨ (k2 ≠ k ∧ c.get k2 = some e2) := by
  simp only [Conf.get] at h ⊢
  by_cases hkk : k2 = k
  · subst hkk
    rw [List.getElem?_set_self (c.get_lt hk)] at h; cases h; exact .inl ⟨rfl, rfl⟩
  · rw [List.getElem?_set_ne (fun h => hkk h.symm)] at h; exact .inr ⟨hkk, h⟩

theorem weakNew_get {k : Nat} {e : Ent}
    (h : Conf.get { c with hs := c.hs ++ [some ⟨.weak none none, false⟩] } k = some e) :
    c.get k = some e ∨ (c.hs.length ≤ k ∧ e = ⟨.weak none none, false⟩) := by
  rcases Conf.get_append_new (new := [⟨.weak none none, false⟩]) h with h | ⟨h1, h2⟩
  · exact .inl h
  · exact .inr ⟨h1, by simpa using h2⟩

theorem borrowed_call {k i : Nat} {cl : Call α} (hi : c.calls[i]? = some cl) (hb : cl.borrow = some k) (hf : cl.fin = false) :
    c.borrowed k = true := by
  simp only [Conf.borrowed, List.any_eq_true]
  exact ⟨cl, List.mem_of_getElem? hi, by simp [hb, hf]⟩

/-- What a call has borrowed stays until it returns. -/
theorem start_bh {c' : Conf α} {op : Op α} (h : SStep c op c') {i : Nat} {cl : Call α} (hi : c.calls[i]? = some cl) (hf : cl.fin = false) :
    cl.bh c = none ∨ cl.bh c' = cl.bh c := by
  have hget : ∀ (c' : Conf α), (∀ k e, c.borrowed k = true → c.get k = some e → (c'.get k).map (·.h) = some e.h) →
      cl.bh c = none ∨ cl.bh c' = cl.bh c := by
    intro c' h
    simp only [Call.bh]
    cases hb : cl.borrow with
    | none => exact .inl rfl
    | some k =>
      cases hk : c.get k with
      | none => exact .inl (by simp [hk])
      | some en => exact .inr (by simp [h k en (borrowed_call hi hb hf) hk, hk])
  have htk : ∀ op k pc ts e, c.get k = some e → c.borrowed k = false → cl.bh c = none ∨ cl.bh (c.taking op k pc ts) = cl.bh c := by
    intro op k pc ts e hk hb
    refine hget _ fun k2 e2 h1 h2 => ?_
    rw [taking_get_old _ h2]; · rfl
    rintro rfl; rw [hb] at h1; cases h1
  cases h with
  | new | mutNew => exact .inr rfl
  | weakNew =>
    refine hget _ fun k e _ hk => ?_
    have : Conf.get { c with hs := c.hs ++ [some ⟨.weak none none, false⟩] } k = some e := Conf.get_append hk
    rw [this]; rfl
  | clone | cloneW | cloneSide | downgrade | upgrade => exact .inr rfl
  | endMut k d g hk =>
    refine hget _ fun k2 e2 _ h2 => ?_
    by_cases hkk : k2 = k
    · subst hkk
      rw [hk] at h2; cases h2
      simp [Conf.get, List.getElem?_set_self (c.get_lt hk)]
    · have : Conf.get { c with hs := c.hs.set k (some ⟨.strong d g, false⟩) } k2 = some e2 := by
        simp only [Conf.get] at h2 ⊢
        rw [List.getElem?_set_ne (fun h => hkk h.symm)]; exact h2
      rw [this]; rfl
  | getMut k d g hk hb => exact htk _ _ _ _ _ hk hb
  | intoMut k d g hk hb => exact htk _ _ _ _ _ hk hb
  | intoImmut k r b hk hb => exact htk _ _ _ _ _ hk hb
  | splitOff s k r b hk hb => exact htk _ _ _ _ _ hk hb
  | next en k r b hk hb => exact htk _ _ _ _ _ hk hb
  | cut en n k r b hk hb => exact htk _ _ _ _ _ hk hb
  | dropS k d g hk hb => exact htk _ _ _ _ _ hk hb
  | dropW k d g b hk hb => exact htk _ _ _ _ _ hk hb
  | dropU k r b hk hb => exact htk _ _ _ _ _ hk hb

/-- What the ghost field `on` of a new call is. -/
theorem start_on {c' : Conf α} {op : Op α} (h : SStep c op c') {cl : Call α} (hj : c'.calls[c.calls.length]? = some cl) {k : Nat}
    (ho : op = .upgrade k ∨ op = .getMut k ∨ op = .intoMut k) : cl.on = c.node k := by
  have old : c.calls[c.calls.length]? = some cl → False := fun h => by
    have := (List.getElem?_eq_some_iff.1 h).1; omega
  cases h with
  | upgrade k d g b hk =>
    rcases ho with ho | ho | ho <;> cases ho
    rcases shared_calls hj with h | ⟨_, rfl⟩
    · exact (old h).elim
    · rfl
  | getMut k d g hk hb | intoMut k d g hk hb =>
    rcases ho with ho | ho | ho <;> cases ho
    rcases taking_calls hj with h | ⟨_, rfl⟩
    · exact (old h).elim
    · rfl
  | _ => rcases ho with ho | ho | ho <;> cases ho

/-- Old calls stay; a new one comes with a handle. -/
theorem start_call {c' : Conf α} {op : Op α} (h : SStep c op c') {j : Nat} {cl : Call α} (hj : c'.calls[j]? = some cl) :
    c.calls[j]? = some cl ∨ (j = c.calls.length ∧ cl.op = op ∧ cl.out = [] ∧
      ((∃ xs, cl.pc = .new xs ∧ cl.tasks = [] ∧ cl.borrow = none) ∨ (∃ xs, cl.pc = .mutNew xs ∧ cl.tasks = [] ∧ cl.borrow = none) ∨
       (∃ k d g, c.get k = some ⟨.strong d g, false⟩ ∧ cl.borrow = some k ∧ c'.get k = some ⟨.strong d g, false⟩ ∧ cl.tasks = [] ∧
          ((op = .clone k ∧ cl.pc = .cl1 d g) ∨ (∃ s, op = .cloneSide s k ∧ cl.pc = .wait d g s) ∨ (op = .downgrade k ∧ cl.pc = .dg0 d g))) ∨
       (∃ k d g b, c.get k = some ⟨.weak d g, b⟩ ∧ cl.borrow = some k ∧ c'.get k = some ⟨.weak d g, b⟩ ∧ cl.tasks = [] ∧
          ((op = .clone k ∧ cl.pc = .wc d g) ∨ (op = .upgrade k ∧ cl.pc = .up d))) ∨
       (∃ k d g, c.get k = some ⟨.strong d g, false⟩ ∧ c.borrowed k = false ∧ cl.borrow = none ∧ c'.get k = none ∧
          ((op = .getMut k ∧ cl.pc = .gm0 d g ∧ cl.tasks = []) ∨ (op = .intoMut k ∧ cl.pc = .im0 d g ∧ cl.tasks = []) ∨
           (op = .drop k ∧ cl.pc = .done .unit ∧ cl.tasks = [.slice d g]))) ∨
       (∃ k d g b, c.get k = some ⟨.weak d g, b⟩ ∧ c.borrowed k = false ∧ cl.borrow = none ∧ c'.get k = none ∧
          op = .drop k ∧ cl.pc = .wd g ∧ cl.tasks = []) ∨
       (∃ k r b, c.get k = some ⟨.uniq r, b⟩ ∧ c.borrowed k = false ∧ cl.borrow = none ∧ c'.get k = none ∧
          ((op = .intoImmut k ∧ cl.pc = .immut r ∧ cl.tasks = []) ∨ (∃ s, op = .splitOff s k ∧ cl.pc = .split s r ∧ cl.tasks = []) ∨
           (∃ e, op = .next e k ∧ cl.pc = .nxt e r ∧ cl.tasks = []) ∨ (∃ e n, op = .cut e n k ∧ cl.pc = .cut e n r ∧ cl.tasks = []) ∨
           (op = .drop k ∧ cl.pc = .done .unit ∧ cl.tasks = [.base (.dropReg r)]))))) := by
  have tn : ∀ {op k pc ts e}, c.get k = some e → (c.taking op k pc ts).get k = none := by
    intro op k pc ts e hk
    cases h : (c.taking op k pc ts).get k with
    | none => rfl
    | some e2 => exact absurd rfl (taking_get hk h).1
  cases h with
  | new xs =>
    rcases plain_calls hj with h | ⟨rfl, rfl⟩
    · exact .inl h
    · exact .inr ⟨rfl, rfl, rfl, .inl ⟨xs, rfl, rfl, rfl⟩⟩
  | mutNew xs =>
    rcases plain_calls hj with h | ⟨rfl, rfl⟩
    · exact .inl h
    · exact .inr ⟨rfl, rfl, rfl, .inr (.inl ⟨xs, rfl, rfl, rfl⟩)⟩
  | weakNew => exact .inl hj
  | endMut k d g hk => exact .inl hj
  | clone k d g hk =>
    rcases shared_calls hj with h | ⟨rfl, rfl⟩
    · exact .inl h
    · exact .inr ⟨rfl, rfl, rfl, .inr (.inr (.inl ⟨k, d, g, hk, rfl, hk, rfl, .inl ⟨rfl, rfl⟩⟩))⟩
  | cloneSide s k d g hk =>
    rcases shared_calls hj with h | ⟨rfl, rfl⟩
    · exact .inl h
    · exact .inr ⟨rfl, rfl, rfl, .inr (.inr (.inl ⟨k, d, g, hk, rfl, hk, rfl, .inr (.inl ⟨s, rfl, rfl⟩)⟩))⟩
  | downgrade k d g hk =>
    rcases shared_calls hj with h | ⟨rfl, rfl⟩
    · exact .inl h
    · exact .inr ⟨rfl, rfl, rfl, .inr (.inr (.inl ⟨k, d, g, hk, rfl, hk, rfl, .inr (.inr ⟨rfl, rfl⟩)⟩))⟩
  | cloneW k d g b hk =>
    rcases shared_calls hj with h | ⟨rfl, rfl⟩
    · exact .inl h
    · exact .inr ⟨rfl, rfl, rfl, .inr (.inr (.inr (.inl ⟨k, d, g, b, hk, rfl, hk, rfl, .inl ⟨rfl, rfl⟩⟩)))⟩
  | upgrade k d g b hk =>
    rcases shared_calls hj with h | ⟨rfl, rfl⟩
    · exact .inl h
    · exact .inr ⟨rfl, rfl, rfl, .inr (.inr (.inr (.inl ⟨k, d, g, b, hk, rfl, hk, rfl, .inr ⟨rfl, rfl⟩⟩)))⟩
  | getMut k d g hk hb =>
    rcases taking_calls hj with h | ⟨rfl, rfl⟩
    · exact .inl h
    · exact .inr ⟨rfl, rfl, rfl, .inr (.inr (.inr (.inr (.inl ⟨k, d, g, hk, hb, rfl, tn hk, .inl ⟨rfl, rfl, rfl⟩⟩))))⟩
  | intoMut k d g hk hb =>
    rcases taking_calls hj with h | ⟨rfl, rfl⟩
    · exact .inl h
    · exact .inr ⟨rfl, rfl, rfl, .inr (.inr (.inr (.inr (.inl ⟨k, d, g, hk, hb, rfl, tn hk, .inr (.inl ⟨rfl, rfl, rfl⟩)⟩))))⟩
  | dropS k d g hk hb =>
    rcases taking_calls hj with h | ⟨rfl, rfl⟩
    · exact .inl h
    · exact .inr ⟨rfl, rfl, rfl, .inr (.inr (.inr (.inr (.inl ⟨k, d, g, hk, hb, rfl, tn hk, .inr (.inr ⟨rfl, rfl, rfl⟩)⟩))))⟩
  | dropW k d g b hk hb =>
    rcases taking_calls hj with h | ⟨rfl, rfl⟩
    · exact .inl h
    · exact .inr ⟨rfl, rfl, rfl, .inr (.inr (.inr (.inr (.inr (.inl ⟨k, d, g, b, hk, hb, rfl, tn hk, rfl, rfl, rfl⟩)))))⟩
  | intoImmut k r b hk hb =>
    rcases taking_calls hj with h | ⟨rfl, rfl⟩
    · exact .inl h
    · exact .inr ⟨rfl, rfl, rfl, .inr (.inr (.inr (.inr (.inr (.inr ⟨k, r, b, hk, hb, rfl, tn hk, .inl ⟨rfl, rfl, rfl⟩⟩)))))⟩
  | splitOff s k r b hk hb =>
    rcases taking_calls hj with h | ⟨rfl, rfl⟩
    · exact .inl h
    · exact .inr ⟨rfl, rfl, rfl, .inr (.inr (.inr (.inr (.inr (.inr ⟨k, r, b, hk, hb, rfl, tn hk, .inr (.inl ⟨s, rfl, rfl, rfl⟩)⟩)))))⟩
  | next en k r b hk hb =>
    rcases taking_calls hj with h | ⟨rfl, rfl⟩
    · exact .inl h
    · exact .inr ⟨rfl, rfl, rfl, .inr (.inr (.inr (.inr (.inr (.inr ⟨k, r, b, hk, hb, rfl, tn hk, .inr (.inr (.inl ⟨en, rfl, rfl, rfl⟩))⟩)))))⟩
  | cut en n k r b hk hb =>
    rcases taking_calls hj with h | ⟨rfl, rfl⟩
    · exact .inl h
    · exact .inr ⟨rfl, rfl, rfl, .inr (.inr (.inr (.inr (.inr (.inr ⟨k, r, b, hk, hb, rfl, tn hk, .inr (.inr (.inr (.inl ⟨en, n, rfl, rfl, rfl⟩)))⟩)))))⟩
  | dropU k r b hk hb =>
    rcases taking_calls hj with h | ⟨rfl, rfl⟩
    · exact .inl h
    · exact .inr ⟨rfl, rfl, rfl, .inr (.inr (.inr (.inr (.inr (.inr ⟨k, r, b, hk, hb, rfl, tn hk, .inr (.inr (.inr (.inr ⟨rfl, rfl, rfl⟩)))⟩)))))⟩

/-- Handles stay, disappear, or are no longer borrowed; only `Weak::new` makes a new one at once. -/
theorem start_get {c' : Conf α} {op : Op α} (h : SStep c op c') {k : Nat} {e : Ent} (hk : c'.get k = some e) :
    c.get k = some e ∨ (op = .weakNew ∧ c.hs.length ≤ k ∧ e = ⟨.weak none none, false⟩) ∨
    (∃ d g, op = .endMut k ∧ c.get k = some ⟨.strong d g, true⟩ ∧ e = ⟨.strong d g, false⟩) := by
  cases h with
  | new | mutNew | clone | cloneW | cloneSide | downgrade | upgrade => exact .inl hk
  | weakNew =>
    rcases weakNew_get hk with h | ⟨h1, h2⟩
    · exact .inl h
    · exact .inr (.inl ⟨rfl, h1, h2⟩)
  | endMut k2 d g hk2 =>
    rcases endMut_get hk2 hk with ⟨rfl, h⟩ | ⟨_, h⟩
    · exact .inr (.inr ⟨d, g, rfl, hk2, h⟩)
    · exact .inl h
  | getMut k2 d g hk2 hb => exact .inl (taking_get hk2 hk).2
  | intoMut k2 d g hk2 hb => exact .inl (taking_get hk2 hk).2
  | intoImmut k2 r b hk2 hb => exact .inl (taking_get hk2 hk).2
  | splitOff s k2 r b hk2 hb => exact .inl (taking_get hk2 hk).2
  | next en k2 r b hk2 hb => exact .inl (taking_get hk2 hk).2
  | cut en n k2 r b hk2 hb => exact .inl (taking_get hk2 hk).2
  | dropS k2 d g hk2 hb => exact .inl (taking_get hk2 hk).2
  | dropW k2 d g b hk2 hb => exact .inl (taking_get hk2 hk).2
  | dropU k2 r b hk2 hb => exact .inl (taking_get hk2 hk).2

/-! ## Guards belong to what they are thought to belong to -/

structure Conf.GFI (c : Conf α) : Prop where
  gf : GF c.a
  ents : ∀ k e, c.get k = some e → entG c.a e.h
  calls : ∀ (i : Nat) cl, c.calls[i]? = some cl → pcG c.a cl.pc ∧ ∀ t ∈ cl.tasks, ataskG c.a t

theorem Conf.BI.gS (B : c.BI) {g : Nat} {v : GuardV} (h : c.a.guard g = some v) : c.a.gS g ≠ 0 :=
  Nat.ne_of_gt ((Arc.GI.live B.gi g).2 ⟨v, h⟩)

theorem ataskStep_next {a a' : Arena α} {t : ATask} {ts : List ATask} {T : List AT} (I : HInv a.b (ataskT t ++ T)) (hp : aplain t)
    (e : ataskStep a t = .ok (a', ts)) : a'.b.sk.next = a.b.sk.next := by
  cases t with
  | base t =>
    obtain ⟨⟨h', ts'⟩, e1, e2⟩ := bind_ok e
    cases pure_ok e2
    obtain ⟨h2, ts2, e3, _, _, hs, _⟩ := HInv.task (t := t) I hp
    rw [e1] at e3; cases e3
    show h'.sk.next = _
    rw [hs.sk]
  | slice d g =>
    obtain ⟨⟨h', ts'⟩, e1, e2⟩ := bind_ok e
    cases pure_ok e2
    have I1 : HInv a.b (.ref d :: (.gd g :: T)) := I
    obtain ⟨h2, ts2, e3, _, _, hs, _⟩ := I1.dropS
    rw [e1] at e3; cases e3
    show h'.sk.next = _
    rw [hs.sk]
  | guard g =>
    simp only [ataskStep, Arena.dropG] at e
    split at e
    · cases e
    · split at e
      · cases e; rfl
      · split at e <;> cases e
        rfl

theorem Conf.GFI.step {c' : Conf α} {i : Nat} (F : c.GFI) (B : c.BI) (ev : AEvo c.a c'.a) (h : c.step i = .ok c') :
    c'.GFI ∧ GEvo c.a c'.a := by
  have Bk := B.heap.base
  -- the others
  have key : ∀ {cl cl' : Call α} {a' : Arena α} {new : List Ent}, c.calls[i]? = some cl → GF a' → GEvo c.a a' → pcG a' cl'.pc →
      (∀ t ∈ cl'.tasks, ataskG a' t) → (∀ e ∈ new, entG a' e.h) → (c.after i a' cl' new).GFI := by
    intro cl cl' a' new hi G ge h1 h2 h3
    refine ⟨G, fun k e hk => ?_, fun j clj hj => ?_⟩
    · rcases after_get hk with hk | ⟨_, hk⟩
      · exact (F.ents k e hk).mono ge
      · exact h3 e hk
    · rcases after_calls hi hj with ⟨rfl, rfl⟩ | ⟨_, hj⟩
      · exact ⟨h1, h2⟩
      · obtain ⟨h4, h5⟩ := F.calls j clj hj
        exact ⟨h4.mono ge B.par (B.calls j clj hj).1, fun t ht => (h5 t ht).mono ge⟩
  cases CStep.of h with
  | none h => exact ⟨F, .refl Bk⟩
  | task cl t ts a' new hi ht e =>
    obtain ⟨h4, h5⟩ := F.calls i cl hi
    have I : HInv c.a.b (ataskT t ++ (ts.flatMap ataskT ++ (pcT cl.pc ++ c.rest i))) := by
      refine (B.heap.perm (Conf.T_perm hi)).count fun t ht' => ?_
      simp only [callT, ht, List.flatMap_cons, List.append_assoc]
    obtain ⟨G, ge, h6⟩ := gf_task Bk F.gf B.par ev (ataskStep_next I ((B.calls i cl hi).2 t (by simp [ht])) e) e
    refine ⟨key hi G ge (h4.mono ge B.par (B.calls i cl hi).1) (fun t' ht' => ?_) (by simp), ge⟩
    rcases List.mem_append.1 ht' with ht' | ht'
    · exact h6 t' ht'
    · exact (h5 t' (by simp [ht, ht'])).mono ge
  | pc cl a' n hi ht e =>
    obtain ⟨h4, h5⟩ := F.calls i cl hi
    have I : HInv c.a.b (pcT cl.pc ++ c.rest i) := by
      refine (B.heap.perm (Conf.T_perm hi)).count fun t ht' => ?_
      simp only [callT, ht, List.flatMap_nil, List.nil_append]
    obtain ⟨G, ge, h6, h7, h8⟩ := gf_pc I F.gf B.par (B.calls i cl hi).1 h4
      (fun h hb => by obtain ⟨k, b, _, hk⟩ := Conf.bh_get hb; exact F.ents k _ hk)
      (fun g v hv => B.gS hv) ev (.of e)
    exact ⟨key hi G ge h6 h7 h8, ge⟩

theorem Conf.GFI.start {c' : Conf α} {op : Op α} (F : c.GFI) (h : c.start op = some c') : c'.GFI := by
  have ea := (Conf.start_T h).2
  have hs := SStep.of h
  refine ⟨by rw [ea]; exact F.gf, fun k e hk => ?_, fun j cl hj => ?_⟩
  · rw [ea]
    rcases start_get hs hk with h | ⟨_, _, rfl⟩ | ⟨d, g, _, h1, rfl⟩
    · exact F.ents k e h
    · exact fun x hx => by cases hx
    · exact (F.ents k ⟨.strong d g, true⟩ h1 :)
  · rw [ea]
    rcases start_call hs hj with h | ⟨_, _, _, h⟩
    · exact F.calls j cl h
    · rcases h with ⟨_, hp, ht, _⟩ | ⟨_, hp, ht, _⟩ | ⟨k, d, g, hk, _, _, ht, hp⟩ | ⟨k, d, g, b, hk, _, _, ht, hp⟩ |
        ⟨k, d, g, hk, _, _, _, hp⟩ | ⟨k, d, g, b, hk, _, _, _, _, hp, ht⟩ | ⟨k, r, b, hk, _, _, _, hp⟩
      · rw [hp, ht]; exact ⟨trivial, by simp⟩
      · rw [hp, ht]; exact ⟨trivial, by simp⟩
      · rw [ht]
        rcases hp with ⟨_, hp⟩ | ⟨s, _, hp⟩ | ⟨_, hp⟩ <;> rw [hp] <;> exact ⟨trivial, by simp⟩
      · rw [ht]
        rcases hp with ⟨_, hp⟩ | ⟨_, hp⟩ <;> rw [hp] <;> exact ⟨trivial, by simp⟩
      · have he := F.ents k _ hk
        rcases hp with ⟨_, hp, ht⟩ | ⟨_, hp, ht⟩ | ⟨_, hp, ht⟩ <;> rw [hp, ht]
        · exact ⟨he, by simp⟩
        · exact ⟨he, by simp⟩
        · exact ⟨trivial, fun t ht => by simp only [List.mem_singleton] at ht; subst ht; exact he⟩
      · rw [hp, ht]; exact ⟨trivial, by simp⟩
      · rcases hp with ⟨_, hp, ht⟩ | ⟨_, _, hp, ht⟩ | ⟨_, _, hp, ht⟩ | ⟨_, _, _, hp, ht⟩ | ⟨_, hp, ht⟩ <;> rw [hp, ht]
        · exact ⟨trivial, by simp⟩
        · exact ⟨trivial, by simp⟩
        · exact ⟨trivial, by simp⟩
        · exact ⟨trivial, by simp⟩
        · exact ⟨trivial, fun t ht => by simp only [List.mem_singleton] at ht; subst ht; trivial⟩


end
end Verif.Arc

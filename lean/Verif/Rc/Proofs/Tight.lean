import Verif.Rc.Proofs.Exclusive
/-!
# Handles without items hold no memory, with one exception
-/

namespace Verif.Spec.World
variable {α : Type} {umax : Nat} {w : World α}

/-- If the handle holds memory it has items. -/
def TightHand (w : World α) : Hand → Prop
  | .shared f _ => (w.fam f).holds = true → 0 < (w.fam f).rng.len
  | .weak f _ => (w.fam f).holds = true → 0 < (w.fam f).rng.len
  | .weakNone => True
  | .uniq _ r h => h = true → 0 < r.len
  | .iter _ r h => h = true → 0 < r.len
  | .parts _ rest h => h = true → 0 < total rest

def Tight (w : World α) : Prop := ∀ k y, w.get k = some y → w.TightHand y

theorem TightHand.same {w w' : World α} {l : List Family} {x : Hand} (h : w'.fams = w.fams ++ l) (hx : w.FamOk x) :
    w'.TightHand x ↔ w.TightHand x := by
  cases x with
  | shared f p => simp only [TightHand, fam_append h hx]
  | weak f p => simp only [TightHand, fam_append h hx]
  | _ => exact Iff.rfl

/-- `split_off_right` of a unique slice with one item. -/
def SplitsOne (w : World α) (op : Op α) : Prop := ∃ k b r h, op = .splitOff .R k ∧ w.get k = some (.uniq b r h) ∧ r.len = 1

theorem total_cons (r : Rng) (l : List Rng) : total (r :: l) = r.len + total l := by simp [total]
theorem total_append (l l' : List Rng) : total (l ++ l') = total l + total l' := by simp [total]

theorem deqStep_total {e : End} {rest : List Rng} {p : Rng} (h : (deqStep e rest).1 = some p) :
    total rest = p.len + total (deqStep e rest).2 := by
  cases e with
  | front =>
    cases rest with
    | nil => simp [deqStep] at h
    | cons r l => simp [deqStep] at h ⊢; subst h; rw [total_cons]
  | back =>
    simp only [deqStep] at h ⊢
    have h2 : rest = rest.dropLast ++ [p] := by
      obtain ⟨l, rfl⟩ := List.getLast?_eq_some_iff.1 h; simp
    conv => lhs; rw [h2]
    rw [total_append, total_cons]; simp [total]; omega

theorem splitHolds_tight {h : Bool} {n r : Nat} (hh : h = true → 0 < n + r) :
    ((splitHolds h n r).1 = true → 0 < n) ∧ ((splitHolds h n r).2 = true → 0 < r) := by
  simp only [splitHolds]
  split
  · exact ⟨fun e => by have := hh e; omega, by simp⟩
  · split
    · exact ⟨by simp, by intro; omega⟩
    · exact ⟨by intro; omega, by intro; omega⟩

theorem total_rparts (m : Nat) (r : Rng) : total (parts Rng.left Rng.right m r) = r.len := by
  have := (rparts_tiles m r).sum
  simp only [total]; rw [show parts Rng.left Rng.right m r = rparts m r from rfl, this]; omega

theorem act_tight (umax : Nat) (W : w.Wf) (t : w.Tight) {op : Op α} (hn : ¬ w.SplitsOne op) : (w.act umax op).1.Tight := by
  intro k' y hy
  obtain ⟨l, hl⟩ := act_fams umax w op
  -- handles that were there before
  have old : ∀ {k0 y0}, w.get k0 = some y0 → (w.act umax op).1.TightHand y0 := fun h => (TightHand.same hl (W.famOk h)).2 (t _ _ h)
  have sh : ∀ {k0 f p} q, w.get k0 = some (.shared f p) → (w.act umax op).1.TightHand (.shared f q) ∧ (w.act umax op).1.TightHand (.weak f q) :=
    fun q h => by have := old h; exact ⟨this, this⟩
  have wk : ∀ {k0 f p} q, w.get k0 = some (.weak f p) → (w.act umax op).1.TightHand (.shared f q) := fun q h => by have := old h; exact this
  have nf : ∀ F : Family, (w.fams ++ [F]).getD w.fams.length ⟨0, ⟨0, 0⟩, false⟩ = F := by intro F; simp
  generalize hw' : (w.act umax op).1 = w' at *
  cases op with
  | rcNew xs =>
    simp only [act] at hw'
    split at hw'
    · subst hw'
      rcases get_push_iff.1 hy with h | ⟨rfl, rfl⟩
      · exact old h
      · simp only [TightHand, fam, newFam, push, newBuf, nf]
        cases xs <;> simp
    · subst hw'; exact old hy
  | mutNew xs =>
    simp only [act] at hw'
    split at hw'
    · subst hw'
      rcases get_push_iff.1 hy with h | ⟨rfl, rfl⟩
      · exact old h
      · simp only [TightHand]; cases xs <;> simp
    · subst hw'; exact old hy
  | weakNew =>
    subst hw'
    rcases get_push_iff.1 hy with h | ⟨rfl, rfl⟩
    · exact old h
    · trivial
  | clone k =>
    cases hk : w.get k with
    | none => simp only [act, hk] at hw'; subst hw'; exact old hy
    | some z =>
      cases z <;> simp only [act, hk] at hw' <;> subst hw'
      case shared f p =>
        rcases get_push_iff.1 hy with h | ⟨rfl, rfl⟩
        · exact old h
        · exact old hk
      case weak f p =>
        rcases get_push_iff.1 hy with h | ⟨rfl, rfl⟩
        · exact old h
        · exact old hk
      case weakNone =>
        rcases get_push_iff.1 hy with h | ⟨rfl, rfl⟩
        · exact old h
        · trivial
      case uniq b r h =>
        rcases get_push_iff.1 hy with h | ⟨rfl, rfl⟩
        · exact old h
        · simp only [TightHand, Bool.and_eq_true, Bool.not_eq_true', and_imp]
          intro _ h
          cases r with
          | mk off len =>
            cases len with
            | zero => cases h
            | succ n => exact Nat.succ_pos n
      all_goals exact old hy
  | cloneSide sd k =>
    cases hk : w.get k with
    | none => simp only [act, hk] at hw'; subst hw'; exact old hy
    | some z =>
      cases z <;> simp only [act, hk] at hw' <;> subst hw'
      case shared f p =>
        rcases get_push_iff.1 hy with h | ⟨rfl, rfl⟩
        · exact old h
        · exact (sh _ hk).1
      all_goals exact old hy
  | splitOff sd k =>
    cases hk : w.get k with
    | none => simp only [act, hk] at hw'; subst hw'; exact old hy
    | some z =>
      cases z with
      | shared f p =>
        cases sd <;> simp only [act, hk] at hw' <;> subst hw'
        all_goals
          rcases get_push_iff.1 hy with h | ⟨rfl, rfl⟩
          · rcases (get_put_iff hk).1 h with ⟨_, h⟩ | ⟨rfl, rfl⟩
            · exact old h
            · exact (sh _ hk).1
          · exact (sh _ hk).1
      | uniq b r hh =>
        have ht := t _ _ hk
        simp only [act, hk] at hw'; subst hw'
        rcases get_push_iff.1 hy with h | ⟨rfl, rfl⟩
        · rcases (get_put_iff hk).1 h with ⟨_, h⟩ | ⟨rfl, rfl⟩
          · exact old h
          · simp only [TightHand] at ht ⊢
            intro e
            have := ht e
            cases sd with
            | L => simp only [Rng.split, Rng.right]; omega
            | R =>
              have : r.len ≠ 1 := fun e1 => hn ⟨_, b, r, hh, rfl, hk, e1⟩
              simp only [Rng.split, Rng.left]; omega
        · simp only [TightHand, Bool.and_eq_true, decide_eq_true_eq]
          exact fun h => h.2
      | _ => simp only [act, hk] at hw'; subst hw'; exact old hy
  | getMut k j a =>
    refine old (k0 := k') ?_
    rw [← hy, ← hw']
    simp only [act]; (repeat' split) <;> rfl
  | write k j a =>
    refine old (k0 := k') ?_
    rw [← hy, ← hw']
    simp only [act]; (repeat' split) <;> rfl
  | read k =>
    refine old (k0 := k') ?_
    rw [← hy, ← hw']
    simp only [act]; (repeat' split) <;> rfl
  | intoMut k =>
    cases hk : w.get k with
    | none => simp only [act, hk] at hw'; subst hw'; exact old hy
    | some z =>
      cases z with
      | shared f p =>
        have ht := t _ _ hk
        simp only [act, hk] at hw'
        split at hw' <;> subst hw'
        · exact old hy
        · rcases (get_put_iff hk).1 hy with ⟨_, h⟩ | ⟨rfl, rfl⟩
          · exact old h
          · simp only [TightHand, holdsOf, Bool.and_eq_true, Bool.or_eq_true, decide_eq_true_eq, List.isEmpty_iff, and_imp] at ht ⊢
            rintro h1 (rfl | h2)
            · exact ht h1
            · exact h2
      | _ => simp only [act, hk] at hw'; subst hw'; exact old hy
  | intoImmut k =>
    cases hk : w.get k with
    | none => simp only [act, hk] at hw'; subst hw'; exact old hy
    | some z =>
      cases z with
      | uniq b r hh =>
        have ht := t _ _ hk
        simp only [act, hk] at hw'; subst hw'
        rcases (get_put_iff (w := w.newFam _) hk).1 hy with ⟨_, h⟩ | ⟨rfl, rfl⟩
        · exact old h
        · simp only [TightHand, fam, newFam, put, nf]; exact ht
      | _ => simp only [act, hk] at hw'; subst hw'; exact old hy
  | downgrade k =>
    cases hk : w.get k with
    | none => simp only [act, hk] at hw'; subst hw'; exact old hy
    | some z =>
      cases z <;> simp only [act, hk] at hw' <;> subst hw'
      case shared f p =>
        rcases get_push_iff.1 hy with h | ⟨rfl, rfl⟩
        · exact old h
        · exact (sh _ hk).2
      all_goals exact old hy
  | upgrade k =>
    cases hk : w.get k with
    | none => simp only [act, hk] at hw'; subst hw'; exact old hy
    | some z =>
      cases z <;> simp only [act, hk] at hw'
      case weak f p =>
        split at hw' <;> subst hw'
        · rcases get_push_iff.1 hy with h | ⟨rfl, rfl⟩
          · exact old h
          · exact wk _ hk
        · exact old hy
      all_goals (subst hw'; exact old hy)
  | drop k =>
    cases hk : w.get k with
    | none => simp only [act, hk] at hw'; subst hw'; exact old hy
    | some z => simp only [act, hk] at hw'; subst hw'; exact old (get_del_iff.1 hy).2
  | intoIter k =>
    cases hk : w.get k with
    | none => simp only [act, hk] at hw'; subst hw'; exact old hy
    | some z =>
      have ht := t _ _ hk
      cases z <;> simp only [act, hk] at hw' <;> subst hw'
      case uniq b r hh =>
        rcases (get_put_iff hk).1 hy with ⟨_, h⟩ | ⟨rfl, rfl⟩
        · exact old h
        · exact ht
      all_goals exact old hy
  | next e k =>
    cases hk : w.get k with
    | none => simp only [act, hk] at hw'; subst hw'; exact old hy
    | some z =>
      have ht := t _ _ hk
      cases z <;> simp only [act, hk] at hw'
      case iter b r hh =>
        split at hw'
        · subst hw'
          rcases (get_put_iff hk).1 hy with ⟨_, h⟩ | ⟨rfl, rfl⟩
          · exact old h
          · simp [TightHand]
        · split at hw' <;> subst hw'
          · rcases (get_put_iff (w := w.store _ _ _) hk).1 hy with ⟨_, h⟩ | ⟨rfl, rfl⟩
            · exact old h
            · simp only [TightHand, Bool.and_eq_true, decide_eq_true_eq]
              exact fun h => h.2
          · exact old hy
      all_goals (subst hw'; exact old hy)
  | splitOffFrom k n =>
    cases hk : w.get k with
    | none => simp only [act, hk] at hw'; subst hw'; exact old hy
    | some z =>
      have ht := t _ _ hk
      cases z <;> simp only [act, hk] at hw'
      case iter b r hh =>
        split at hw' <;> subst hw'
        · have := splitHolds_tight (h := hh) (n := r.len - n) (r := n) (fun e => by have := ht e; omega)
          rcases get_push_iff.1 hy with h | ⟨rfl, rfl⟩
          · rcases (get_put_iff hk).1 h with ⟨_, h⟩ | ⟨rfl, rfl⟩
            · exact old h
            · exact this.2
          · exact this.1
        · exact old hy
      all_goals (subst hw'; exact old hy)
  | splitOffTo k n =>
    cases hk : w.get k with
    | none => simp only [act, hk] at hw'; subst hw'; exact old hy
    | some z =>
      have ht := t _ _ hk
      cases z <;> simp only [act, hk] at hw'
      case iter b r hh =>
        split at hw' <;> subst hw'
        · have := splitHolds_tight (h := hh) (n := n) (r := r.len - n) (fun e => by have := ht e; omega)
          rcases get_push_iff.1 hy with h | ⟨rfl, rfl⟩
          · rcases (get_put_iff hk).1 h with ⟨_, h⟩ | ⟨rfl, rfl⟩
            · exact old h
            · exact this.2
          · exact this.1
        · exact old hy
      all_goals (subst hw'; exact old hy)
  | intoParts k n =>
    cases hk : w.get k with
    | none => simp only [act, hk] at hw'; subst hw'; exact old hy
    | some z =>
      have ht := t _ _ hk
      cases z <;> simp only [act, hk] at hw'
      case uniq b r hh =>
        split at hw'
        · split at hw' <;> subst hw'
          · rcases (get_put_iff hk).1 hy with ⟨_, h⟩ | ⟨rfl, rfl⟩
            · exact old h
            · simp only [TightHand, total_rparts]; exact ht
          · exact old (get_del_iff.1 hy).2
        · subst hw'; exact old hy
      all_goals (subst hw'; exact old hy)
  | nextPart e k =>
    cases hk : w.get k with
    | none => simp only [act, hk] at hw'; subst hw'; exact old hy
    | some z =>
      have ht := t _ _ hk
      cases z <;> simp only [act, hk] at hw'
      case parts b rest hh =>
        split at hw'
        · subst hw'; exact old hy
        · next p hp =>
          subst hw'
          have hd := deqStep_total hp
          have := splitHolds_tight (h := hh) (n := p.len) (r := total (deqStep e rest).2) (fun e => by have := ht e; omega)
          rcases get_push_iff.1 hy with h | ⟨rfl, rfl⟩
          · rcases (get_put_iff hk).1 h with ⟨_, h⟩ | ⟨rfl, rfl⟩
            · exact old h
            · exact this.2
          · exact this.1
      all_goals (subst hw'; exact old hy)

theorem total_pos {rest : List Rng} (h : 0 < total rest) : ∃ i, rest.any (·.has i) = true := by
  have : ∃ r ∈ rest, 0 < r.len := by
    induction rest with
    | nil => simp [total] at h
    | cons r l ih =>
      rw [total_cons] at h
      by_cases e : 0 < r.len
      · exact ⟨r, List.mem_cons_self .., e⟩
      · obtain ⟨r', h3, h4⟩ := ih (by omega)
        exact ⟨r', List.mem_cons_of_mem _ h3, h4⟩
  obtain ⟨r, h3, h4⟩ := this
  exact ⟨r.off, by rw [List.any_eq_true]; exact ⟨r, h3, Rng.has_add (r := r) (j := 0) h4⟩⟩

theorem Tight.covers (t : w.Tight) {k b : Nat} {y : Hand} (hk : w.get k = some y) (h : w.keeps b y = true) : ∃ i, w.covers b i y = true := by
  have has : ∀ r : Rng, 0 < r.len → r.has r.off = true := by
    intro r hr; exact Rng.has_add (r := r) (j := 0) hr
  have ht := t _ _ hk
  cases y with
  | shared f p =>
    simp only [keeps, holdsOf, Bool.and_eq_true, Bool.or_eq_true, decide_eq_true_eq, List.isEmpty_iff] at h
    obtain ⟨h1, h2, h3⟩ := h
    refine ⟨(w.rangeOf f p).off, ?_⟩
    simp only [World.covers, h1, Bool.true_and]
    rcases h3 with rfl | h3
    · exact has _ (ht h2)
    · exact has _ h3
  | weak f p => cases h
  | weakNone => cases h
  | uniq b' r hh =>
    simp only [keeps, Bool.and_eq_true] at h
    exact ⟨r.off, by simp only [World.covers, h.1, Bool.true_and]; exact has _ (ht h.2)⟩
  | iter b' r hh =>
    simp only [keeps, Bool.and_eq_true] at h
    exact ⟨r.off, by simp only [World.covers, h.1, Bool.true_and]; exact has _ (ht h.2)⟩
  | parts b' rest hh =>
    simp only [keeps, Bool.and_eq_true] at h
    have h2 := ht h.2
    obtain ⟨i, hi⟩ := total_pos h2
    exact ⟨i, by simp only [World.covers, h.1, Bool.true_and]; exact hi⟩

end Verif.Spec.World

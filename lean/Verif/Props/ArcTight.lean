import Verif.Props.ArcExclusive
/-!
# The disciplines cannot be weakened

C37 holds of programs whose calls of `upgrade` are `careful` about calls of `into_mut`, and C38 and C39 of programs that
are `strict` (`Arc/Spec.lean`). Each clause of the two definitions is needed: without it, the property fails in a run
that obeys all other clauses. So the disciplines say how `WeakSlice::upgrade` must be used, kind of overlap by kind of overlap.
-/

namespace Verif
open Arc Spec

namespace Arc
variable {α : Type}

/-- The kinds of overlap that `Conf.strict` excludes. In each of them a `WeakSlice` of subslice `u` is upgraded, and `into_mut`
or `get_mut` is called on subslice `d`. -/
inductive Clash
  /-- `u` is a proper part of `d`; `upgrade` is called while `into_mut` is running. -/
  | upgradeInto
  /-- `u` is a proper part of `d`; `into_mut` is called while `upgrade` is running. -/
  | intoUpgrade
  /-- `u` is a proper part of `d`, or `u` is `d`; `upgrade` is called while `get_mut` is running. -/
  | upgradeGet (same : Bool)
  /-- The same, but `get_mut` is called while `upgrade` is running. -/
  | getUpgrade (same : Bool)
  /-- The same, but `upgrade` is called while the mutable reference is in use. -/
  | upgradeLent (same : Bool)
deriving DecidableEq

/-- `u` is `d`, or (if `same` is false) a proper part of it. -/
def Conf.rel (c : Conf α) (same : Bool) (d u : Nat) : Bool := if same then c.part d u && c.a.b.sk.lab d == c.a.b.sk.lab u else c.proper d u

/-- Calling this now is an overlap of that kind. -/
def Conf.clash (c : Conf α) : Clash → Op α → Bool
  | .upgradeInto, .upgrade k => (c.node k).any fun u => c.busy Op.isIntoMut fun d => c.proper d u
  | .intoUpgrade, .intoMut k => (c.node k).any fun d => c.busy Op.isUpgrade fun u => c.proper d u
  | .upgradeGet s, .upgrade k => (c.node k).any fun u => c.busy Op.isGetMut fun d => c.rel s d u
  | .getUpgrade s, .getMut k => (c.node k).any fun d => c.busy Op.isUpgrade fun u => c.rel s d u
  | .upgradeLent s, .upgrade k => (c.node k).any fun u => c.lent fun d => c.rel s d u
  | _, _ => false

/-- All kinds of overlap but one are avoided. -/
def Conf.allBut (c : Conf α) (w : Clash) (op : Op α) : Bool :=
  [Clash.upgradeInto, .intoUpgrade, .upgradeGet true, .upgradeGet false, .getUpgrade true, .getUpgrade false,
    .upgradeLent true, .upgradeLent false].all fun w' => w' == w || !c.clash w' op


theorem Conf.rel_or (c : Conf α) (d u : Nat) : (c.rel true d u || c.rel false d u) = c.part d u := by
  simp only [Conf.rel, Conf.proper, if_true, Bool.false_eq_true, if_false]
  cases c.part d u <;> cases h : c.a.b.sk.lab d == c.a.b.sk.lab u <;> simp_all [bne]

theorem Conf.busy_or (c : Conf α) (p : Op α → Bool) (q r : Nat → Bool) : (c.busy p q || c.busy p r) = c.busy p fun x => q x || r x := by
  unfold Conf.busy
  induction c.calls with
  | nil => rfl
  | cons cl l ih => cases h : cl.on <;> simp_all [List.any_cons] <;> grind

theorem Conf.lent_or (c : Conf α) (q r : Nat → Bool) : (c.lent q || c.lent r) = c.lent fun x => q x || r x := by
  unfold Conf.lent
  induction c.hs with
  | nil => rfl
  | cons o l ih =>
    rcases o with _ | ⟨h, m⟩
    · simp_all [List.any_cons]
    · cases h <;> simp_all [List.any_cons] <;> grind

/-- `strict` consists of these eight clauses. -/
theorem Conf.strict_iff (c : Conf α) (op : Op α) : c.strict op = true ↔ ∀ w, c.clash w op = false := by
  have all : (∀ w, c.clash w op = false) ↔ c.clash .upgradeInto op = false ∧ c.clash .intoUpgrade op = false ∧
      (c.clash (.upgradeGet true) op = false ∧ c.clash (.upgradeGet false) op = false) ∧
      (c.clash (.getUpgrade true) op = false ∧ c.clash (.getUpgrade false) op = false) ∧
      (c.clash (.upgradeLent true) op = false ∧ c.clash (.upgradeLent false) op = false) :=
    ⟨fun h => ⟨h _, h _, ⟨h _, h _⟩, ⟨h _, h _⟩, ⟨h _, h _⟩⟩, fun h w => by
      rcases w with _ | _ | (_ | _) | (_ | _) | (_ | _)
      · exact h.1
      · exact h.2.1
      · exact h.2.2.1.2
      · exact h.2.2.1.1
      · exact h.2.2.2.1.2
      · exact h.2.2.2.1.1
      · exact h.2.2.2.2.2
      · exact h.2.2.2.2.1⟩
  rw [all]
  cases op with
  | upgrade k =>
    cases hk : c.node k <;> simp [Conf.strict, Conf.clash, hk, ← c.rel_or, ← Conf.busy_or, ← Conf.lent_or, and_assoc]
  | intoMut k => cases hk : c.node k <;> simp [Conf.strict, Conf.clash, hk]
  | getMut k =>
    cases hk : c.node k <;> simp [Conf.strict, Conf.clash, hk, ← c.rel_or, ← Conf.busy_or]
  | _ => simp [Conf.strict, Conf.clash]

/-- `careful` consists of the first two. -/
theorem Conf.careful_iff (c : Conf α) (op : Op α) :
    c.careful op = true ↔ c.clash .upgradeInto op = false ∧ c.clash .intoUpgrade op = false := by
  cases op with
  | upgrade k => cases hk : c.node k <;> simp [Conf.careful, Conf.clash, hk]
  | intoMut k => cases hk : c.node k <;> simp [Conf.careful, Conf.clash, hk]
  | _ => simp [Conf.careful, Conf.clash]

theorem Conf.allBut_iff (c : Conf α) (w : Clash) (op : Op α) : c.allBut w op = true ↔ ∀ w', w' ≠ w → c.clash w' op = false := by
  simp only [Conf.allBut, List.all_eq_true, Bool.or_eq_true, beq_iff_eq, Bool.not_eq_true']
  constructor
  · intro h w' hw
    refine (h w' ?_).resolve_left hw
    rcases w' with _ | _ | (_ | _) | (_ | _) | (_ | _) <;> simp
  · intro h w' _
    by_cases e : w' = w
    · exact .inl e
    · exact .inr (h w' e)

theorem Conf.Reach.mono {P Q : Rules α} {zst : Bool} {c : Conf α} (hPQ : ∀ c op, P c op → Q c op) (h : Conf.Reach P zst c) :
    Conf.Reach Q zst c := by
  induction h with
  | init => exact .init
  | run _ i e ih => exact .run ih i e
  | start _ op hp e ih => exact .start ih op (hPQ _ _ hp) e
  | write _ k en j x hk hw e ih => exact .write ih k en j x hk hw e

/-- `prelude`, and then `let mut l = ArcSlice::clone_left(&a); drop(a);`. The guard of the left half is a new one, the
`WeakSlice` is of the old one. -/
def preludeSame : List (Act Nat) := prelude ++ [.op (.cloneSide .L 0), .run 4 20, .op (.drop 0), .run 5 20]

/-- A run with an overlap of each kind. -/
def clashing : Clash → List (Act Nat)
  | .upgradeInto => prelude ++ [.op (.intoMut 0), .run 4 3, .op (.upgrade 2), .run 5 20, .run 4 20]
  | .intoUpgrade => prelude ++ [.op (.upgrade 2), .run 4 1, .op (.intoMut 0), .run 5 20, .run 4 20]
  | .upgradeGet false => prelude ++ [.op (.getMut 0), .run 4 5, .op (.upgrade 2), .run 5 20, .run 4 20]
  | .getUpgrade false => prelude ++ [.op (.upgrade 2), .run 4 1, .op (.getMut 0), .run 5 20, .run 4 20]
  | .upgradeLent false => prelude ++ [.op (.getMut 0), .run 4 20, .op (.upgrade 2), .run 5 20]
  | .upgradeGet true => preludeSame ++ [.op (.getMut 3), .run 6 5, .op (.upgrade 2), .run 7 20, .run 6 20]
  | .getUpgrade true => preludeSame ++ [.op (.upgrade 2), .op (.getMut 3), .run 7 20, .run 6 20]
  | .upgradeLent true => preludeSame ++ [.op (.getMut 3), .run 6 20, .op (.upgrade 2), .run 7 20]

end Arc

/-- C38, C39: none of the eight clauses of `strict` can be dropped. If one kind of overlap is permitted and all others are
excluded, there are a unique slice or a mutable reference `k` and another handle that show the same item. -/
theorem C38_C39_tight (w : Clash) : ∃ c : Conf Nat, Conf.Reach (fun c op => ∀ w', w' ≠ w → c.clash w' op = false) false c ∧ c.Quiet ∧
    ∃ k k' b i, k ≠ k' ∧ c.Exclusive k ∧ c.Shows k b i ∧ c.Shows k' b i := by
  have reach : ∀ {as : List (Act Nat)}, execIf (fun c op => c.allBut w op) (Conf.init false) as = some (.ok (after as)) →
      Conf.Reach (fun c op => ∀ w', w' ≠ w → c.clash w' op = false) false (after as) := fun h =>
    Conf.Reach.mono (fun c op hp => (c.allBut_iff w op).1 hp) (execIf_reach (p := fun c op => c.allBut w op) .init h)
  refine ⟨after (clashing w), ?_⟩
  rcases w with _ | _ | (_ | _) | (_ | _) | (_ | _)
  · exact ⟨reach rfl, by unfold Conf.Quiet; decide, 4, 3, 0, 0, by decide, ⟨_, rfl, rfl⟩,
      ⟨⟨.uniq ⟨0, 0, 2, some 0⟩, false⟩, 0, 2, rfl, rfl, by decide, by decide⟩, ⟨⟨.strong 2 2, false⟩, 0, 1, rfl, rfl, by decide, by decide⟩⟩
  · exact ⟨reach rfl, by unfold Conf.Quiet; decide, 3, 4, 0, 0, by decide, ⟨_, rfl, rfl⟩,
      ⟨⟨.uniq ⟨0, 0, 2, some 0⟩, false⟩, 0, 2, rfl, rfl, by decide, by decide⟩, ⟨⟨.strong 2 2, false⟩, 0, 1, rfl, rfl, by decide, by decide⟩⟩
  · exact ⟨reach rfl, by unfold Conf.Quiet; decide, 4, 3, 0, 0, by decide, ⟨_, rfl, rfl⟩,
      ⟨⟨.strong 1 0, true⟩, 0, 2, rfl, rfl, by decide, by decide⟩, ⟨⟨.strong 2 2, false⟩, 0, 1, rfl, rfl, by decide, by decide⟩⟩
  · exact ⟨reach rfl, by unfold Conf.Quiet; decide, 5, 4, 0, 0, by decide, ⟨_, rfl, rfl⟩,
      ⟨⟨.strong 2 2, true⟩, 0, 1, rfl, rfl, by decide, by decide⟩, ⟨⟨.strong 2 2, false⟩, 0, 1, rfl, rfl, by decide, by decide⟩⟩
  · exact ⟨reach rfl, by unfold Conf.Quiet; decide, 3, 4, 0, 0, by decide, ⟨_, rfl, rfl⟩,
      ⟨⟨.strong 1 0, true⟩, 0, 2, rfl, rfl, by decide, by decide⟩, ⟨⟨.strong 2 2, false⟩, 0, 1, rfl, rfl, by decide, by decide⟩⟩
  · exact ⟨reach rfl, by unfold Conf.Quiet; decide, 4, 5, 0, 0, by decide, ⟨_, rfl, rfl⟩,
      ⟨⟨.strong 2 2, true⟩, 0, 1, rfl, rfl, by decide, by decide⟩, ⟨⟨.strong 2 2, false⟩, 0, 1, rfl, rfl, by decide, by decide⟩⟩
  · exact ⟨reach rfl, by unfold Conf.Quiet; decide, 3, 4, 0, 0, by decide, ⟨_, rfl, rfl⟩,
      ⟨⟨.strong 1 0, true⟩, 0, 2, rfl, rfl, by decide, by decide⟩, ⟨⟨.strong 2 2, false⟩, 0, 1, rfl, rfl, by decide, by decide⟩⟩
  · exact ⟨reach rfl, by unfold Conf.Quiet; decide, 4, 5, 0, 0, by decide, ⟨_, rfl, rfl⟩,
      ⟨⟨.strong 2 2, true⟩, 0, 1, rfl, rfl, by decide, by decide⟩, ⟨⟨.strong 2 2, false⟩, 0, 1, rfl, rfl, by decide, by decide⟩⟩

/-- C37: neither of the two clauses of `careful` can be dropped. If one of the two kinds of overlap is permitted and all
others are excluded, an item may be dropped twice. -/
theorem C37_tight {w : Clash} (hw : w = .upgradeInto ∨ w = .intoUpgrade) : ∃ (c : Conf Nat) (i : Nat),
    Conf.Reach (fun c op => ∀ w', w' ≠ w → c.clash w' op = false) false c ∧ c.step i = .error .deadItem := by
  have reach : ∀ {as : List (Act Nat)}, execIf (fun c op => c.allBut w op) (Conf.init false) as = some (.ok (after as)) →
      Conf.Reach (fun c op => ∀ w', w' ≠ w → c.clash w' op = false) false (after as) := fun h =>
    Conf.Reach.mono (fun c op hp => (c.allBut_iff w op).1 hp) (execIf_reach (p := fun c op => c.allBut w op) .init h)
  refine ⟨after (clashing w ++ [.op (.drop 3), .run 6 20, .op (.drop 4), .run 7 (if w = .upgradeInto then 0 else 1)]), 7, ?_⟩
  rcases hw with rfl | rfl
  · exact ⟨reach rfl, rfl⟩
  · exact ⟨reach rfl, rfl⟩

/-! ## What may overlap -/

namespace Arc

/-- `upgrade` of a `WeakSlice` of the left half overlaps `into_mut` on the left half itself. -/
def overlapSame : List (Act Nat) :=
  preludeSame ++ [.op (.upgrade 2), .run 6 1, .op (.intoMut 3), .run 7 20, .run 6 20]

/-- `upgrade` of a `WeakSlice` of the whole slice overlaps `into_mut` on the left half, and a call of `get_mut` on the
right half that is given back only when they have returned. -/
def overlapParts : List (Act Nat) :=
  [.op (.new [1, 2]), .run 0 8, .op (.downgrade 0), .run 1 3, .op (.cloneSide .L 0), .run 2 20, .op (.cloneSide .R 0), .run 3 20,
    .op (.drop 0), .run 4 20, .op (.getMut 3), .run 5 2, .op (.upgrade 1), .run 6 1, .op (.intoMut 2), .run 5 20, .run 7 20, .run 6 20,
    .wr 4 0 7]

/-- `upgrade` of a `WeakSlice` of the left half while a mutable reference to the right half is in use. -/
def overlapHalves : List (Act Nat) :=
  [.op (.new [1, 2]), .run 0 8, .op (.cloneSide .L 0), .run 1 20, .op (.cloneSide .R 0), .run 2 20, .op (.downgrade 1), .run 3 3,
    .op (.drop 0), .run 4 20, .op (.getMut 2), .run 5 20, .op (.upgrade 3), .wr 4 0 7, .run 6 20]

theorem overlap_reach {as : List (Act Nat)} (h : execIf (fun c op => c.strict op) (Conf.init false) as = some (.ok (after as))) :
    Conf.Reach (fun c op => c.strict op = true) false (after as) := execIf_reach (p := fun c op => c.strict op) .init h

/-- These runs are `strict`. In the first one `upgrade` wins, and `into_mut` gives its slice back. -/
example : Conf.Reach (fun c op => c.strict op = true) false (after overlapSame) ∧ (after overlapSame).Quiet ∧
    (after overlapSame).get 4 = some ⟨.strong 2 2, false⟩ ∧ (after overlapSame).get 5 = some ⟨.strong 2 2, false⟩ :=
  ⟨overlap_reach rfl, by unfold Conf.Quiet; decide, rfl, rfl⟩

/-- In the second one `into_mut` and `get_mut` succeed on the two halves, and `upgrade` of the whole slice fails. So nobody
else shows what they show. -/
example : Conf.Reach (fun c op => c.strict op = true) false (after overlapParts) ∧ (after overlapParts).Quiet ∧
    (after overlapParts).get 4 = some ⟨.strong 3 2, true⟩ ∧ (after overlapParts).get 5 = some ⟨.uniq ⟨0, 0, 1, some 0⟩, false⟩ ∧
    ((∀ k, (after overlapParts).Shows k 0 1 → k = 4) ∧ ∀ k, (after overlapParts).Shows k 0 0 → k = 5) :=
  ⟨overlap_reach rfl, by unfold Conf.Quiet; decide, rfl, rfl,
    fun _ h => C38_C39_partial strict_strict (overlap_reach rfl) (k := 4) ⟨_, rfl, rfl⟩
      ⟨⟨.strong 3 2, true⟩, 1, 1, rfl, rfl, by decide, by decide⟩ h,
    fun _ h => C38_C39_partial strict_strict (overlap_reach rfl) (k := 5) ⟨_, rfl, rfl⟩
      ⟨⟨.uniq ⟨0, 0, 1, some 0⟩, false⟩, 0, 1, rfl, rfl, by decide, by decide⟩ h⟩

/-- In the third one the left half is upgraded while the right half is being written to. -/
example : Conf.Reach (fun c op => c.strict op = true) false (after overlapHalves) ∧ (after overlapHalves).Quiet ∧
    (after overlapHalves).get 4 = some ⟨.strong 3 2, true⟩ ∧ (after overlapHalves).get 5 = some ⟨.strong 2 1, false⟩ ∧
    (∀ k, (after overlapHalves).Shows k 0 1 → k = 4) ∧ (after overlapHalves).Shows 5 0 0 :=
  ⟨overlap_reach rfl, by unfold Conf.Quiet; decide, rfl, rfl,
    fun _ h => C38_C39_partial strict_strict (overlap_reach rfl) (k := 4) ⟨_, rfl, rfl⟩
      ⟨⟨.strong 3 2, true⟩, 1, 1, rfl, rfl, by decide, by decide⟩ h,
    ⟨⟨.strong 2 1, false⟩, 0, 1, rfl, rfl, by decide, by decide⟩⟩

end Arc
end Verif

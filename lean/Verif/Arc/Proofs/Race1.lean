import Verif.Arc.Race
import Verif.Arc.Proofs.Reach
/-!
# What atomic accesses pass on
-/

namespace Verif.Arc
open Verif.Spec (Side Slot Family Rng End)
open Verif.Rc
variable {α : Type}

@[simp] theorem View.mem_join {V W : View} {x : Nat} : x ∈ V.join W ↔ x ∈ V ∨ x ∈ W := by
  simp only [View.join, List.mem_append, List.mem_filter, Bool.not_eq_true', List.contains_eq_mem, decide_eq_false_iff_not]
  by_cases h : x ∈ V <;> simp [h]

/-! ## Atomic accesses -/

section
variable {p : View × Rel} {l : List Acc} {x : Nat}

theorem Acc.run_view (a : Acc) (h : x ∈ p.1) : x ∈ (a.run p).1 := by
  cases a with
  | load l acq => cases acq <;> simp [Acc.run, h]
  | rmw l acq rel => cases acq <;> simp [Acc.run, h]
  | store l => exact h

theorem Acc.runs_view (h : x ∈ p.1) : x ∈ (Acc.runs p l).1 := by
  induction l generalizing p with
  | nil => exact h
  | cons a l ih => exact ih (Acc.run_view a h)

theorem Acc.run_rel {y : Loc} (a : Acc) (ha : a ≠ .store y) (h : x ∈ p.2 y) : x ∈ (a.run p).2 y := by
  cases a with
  | load l acq => exact h
  | rmw l acq rel =>
    cases rel
    · exact h
    · simp only [Acc.run, Rel.set, if_true]
      split
      · next e => subst e; simp [h]
      · exact h
  | store l =>
    have : y ≠ l := fun e => ha (by rw [e])
    simp [Acc.run, Rel.set, this, h]

theorem Acc.runs_rel {y : Loc} (hl : ∀ a ∈ l, a ≠ .store y) (h : x ∈ p.2 y) : x ∈ (Acc.runs p l).2 y := by
  induction l generalizing p with
  | nil => exact h
  | cons a l ih => exact ih (fun b hb => hl b (List.mem_cons_of_mem _ hb)) (Acc.run_rel a (hl a (List.mem_cons_self ..)) h)

/-- An acquiring access learns what the variable passes on. -/
def Acc.acquires (a : Acc) (y : Loc) : Prop := a = .load y true ∨ ∃ r, a = .rmw y true r

def Acc.releases (a : Acc) (y : Loc) : Prop := ∃ q, a = .rmw y q true

theorem Acc.runs_acq {y : Loc} (hl : ∀ a ∈ l, a ≠ .store y) {a : Acc} (ha : a ∈ l) (hq : a.acquires y) (h : x ∈ p.2 y) :
    x ∈ (Acc.runs p l).1 := by
  induction l generalizing p with
  | nil => cases ha
  | cons b l ih =>
    rcases List.mem_cons.1 ha with rfl | ha
    · refine Acc.runs_view (p := Acc.run p a) (l := l) ?_
      rcases hq with rfl | ⟨r, rfl⟩ <;> exact View.mem_join.2 (.inr h)
    · exact ih (fun b hb => hl b (List.mem_cons_of_mem _ hb)) ha (Acc.run_rel b (hl b (List.mem_cons_self ..)) h)

theorem Acc.runs_put {y : Loc} (hl : ∀ a ∈ l, a ≠ .store y) {a : Acc} (ha : a ∈ l) (hq : a.releases y) (h : x ∈ p.1) :
    x ∈ (Acc.runs p l).2 y := by
  induction l generalizing p with
  | nil => cases ha
  | cons b l ih =>
    rcases List.mem_cons.1 ha with rfl | ha
    · refine Acc.runs_rel (p := Acc.run p a) (l := l) (fun c hc => hl c (List.mem_cons_of_mem _ hc)) ?_
      obtain ⟨q, rfl⟩ := hq
      have : x ∈ (if q then p.1.join (p.2 y) else p.1) := by cases q <;> simp [h]
      simp only [Acc.run, Rel.set, if_true]
      exact View.mem_join.2 (.inr this)
    · exact ih (fun b hb => hl b (List.mem_cons_of_mem _ hb)) ha (Acc.run_view b h)

/-- Where what is passed on comes from. -/
theorem Acc.runs_from {y : Loc} (hl : ∀ a ∈ l, ¬ a.releases y ∧ a ≠ .store y) : (Acc.runs p l).2 y = p.2 y := by
  induction l generalizing p with
  | nil => rfl
  | cons a l ih =>
    refine (ih fun b hb => hl b (List.mem_cons_of_mem _ hb)).trans ?_
    obtain ⟨h1, h2⟩ := hl a (List.mem_cons_self ..)
    cases a with
    | load l acq => rfl
    | rmw l acq rel =>
      cases rel
      · rfl
      · have : y ≠ l := fun e => h1 ⟨acq, by rw [e]⟩
        simp [Acc.run, Rel.set, this]
    | store l =>
      have : y ≠ l := fun e => h2 (by rw [e])
      simp [Acc.run, Rel.set, this]

end

/-! ## The accesses of a step -/

/-- Variables that are never just overwritten. -/
def Loc.isCnt : Loc → Prop
  | .cnt _ | .gcnt _ | .kid _ _ | .box _ => True
  | _ => False

section
variable {a a' : Arena α}

theorem dropAcc_store {x : Nat} {l : Loc} : Acc.store l ∉ dropAcc a x := by
  simp only [dropAcc]
  split
  · split <;> simp
  · simp

theorem unwrapAcc_store {x : Nat} {l : Loc} : Acc.store l ∉ unwrapAcc a x := by
  simp only [unwrapAcc]
  split <;> simp

theorem ataskAcc_store {t : ATask} {l : Loc} : Acc.store l ∉ ataskAcc a t := by
  cases t with
  | base t => cases t <;> simp [ataskAcc, dropAcc_store]
  | slice d g => exact dropAcc_store
  | guard g => simp only [ataskAcc, dropGAcc]; split <;> simp

theorem upAcc_store {o : Ords} {p : Nat} {l : Loc} : Acc.store l ∉ upAcc o a p := by
  simp only [upAcc]; split <;> simp

theorem pcAcc_store {o : Ords} {pc : Pc α} {l : Loc} (hl : l.isCnt) : Acc.store l ∉ pcAcc o a pc := by
  cases pc with
  | up d => cases d <;> simp [pcAcc, upAcc_store]
  | wd g => cases g <;> simp [pcAcc]
  | imFg todo g r acc =>
    cases todo with
    | nil => simp [pcAcc]
    | cons f todo => cases f <;> simp [pcAcc, unwrapAcc_store]
  | im2 d g => exact unwrapAcc_store
  | gPar x b fs y =>
    simp only [pcAcc]
    split
    · simp
    · exact upAcc_store
  | gTry x b pend fs y =>
    simp only [pcAcc]
    split
    · simp
    · split <;> simp
  | gCas x b og fs y => simp only [pcAcc]; split <;> simp
  | cs d s =>
    simp only [pcAcc]
    split
    · split <;> simp
    · simp
  | csCas d s r =>
    simp only [pcAcc]
    split
    · split <;> simp
    · simp
  | _ => cases l <;> simp_all [pcAcc, Loc.isCnt]

theorem callAcc_store {o : Ords} {cl : Call α} {l : Loc} (hl : l.isCnt) : ∀ x ∈ callAcc o a cl, x ≠ .store l := by
  rintro x hx rfl
  simp only [callAcc] at hx
  replace hx := (List.mem_filter.1 hx).1
  split at hx
  · exact ataskAcc_store hx
  · exact pcAcc_store hl hx

/-- `q` passes on what `p` does, through variables that are never just overwritten. -/
structure AccLe (p q : List Acc) : Prop where
  rel : ∀ l, l.isCnt → (∃ r ∈ p, r.releases l) → ∃ r ∈ q, r.releases l
  acq : ∀ l, l.isCnt → (∃ r ∈ p, r.acquires l) → ∃ r ∈ q, r.acquires l

theorem AccLe.filter {o : Ords} {p : List Acc} : AccLe p (p.filter fun r => o.weak || !r.onWeak) where
  rel l hl h := by
    obtain ⟨r, hr, q, rfl⟩ := h
    exact ⟨_, List.mem_filter.2 ⟨hr, by cases l <;> simp_all [Loc.isCnt, Acc.onWeak]⟩, q, rfl⟩
  acq l hl h := by
    obtain ⟨r, hr, hq⟩ := h
    refine ⟨r, List.mem_filter.2 ⟨hr, ?_⟩, hq⟩
    rcases hq with rfl | ⟨_, rfl⟩ <;> cases l <;> simp_all [Loc.isCnt, Acc.onWeak]

theorem dropAcc_acq {x : Nat} (h : a.b.strong x = 1) : ∃ r ∈ dropAcc a x, r.acquires (.cnt x) :=
  ⟨.rmw (.cnt x) true true, by simp [dropAcc, h], .inr ⟨_, rfl⟩⟩

theorem dropAcc_rel {x : Nat} : ∃ r ∈ dropAcc a x, r.releases (.cnt x) := by
  by_cases h : a.b.strong x = 1
  · exact ⟨.rmw (.cnt x) true true, by simp [dropAcc, h], ⟨_, rfl⟩⟩
  · exact ⟨.rmw (.cnt x) false true, by simp [dropAcc, h], ⟨_, rfl⟩⟩

theorem unwrapAcc_acq {x : Nat} (h : a.b.strong x = 1) : ∃ r ∈ unwrapAcc a x, r.acquires (.cnt x) :=
  ⟨.rmw (.cnt x) true true, by simp [unwrapAcc, h], .inr ⟨_, rfl⟩⟩

end
end Verif.Arc

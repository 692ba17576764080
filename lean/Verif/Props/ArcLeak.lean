import Verif.Arc.Proofs.Leak2
import Verif.Props.ArcCounts
import Verif.Props.ArcSeq
/-!
# C77: how much the Arc version leaks

`C40_fails`: the boxes that the guard pointers of `ArcSliceData` refer to are never freed. How many there are, which calls
make them, and that there is no bound on their number.
-/

namespace Verif
open Verif.Arc
open Rc (UB Lab)
variable {α : Type} {P : Rules α} {zst : Bool} {c c' : Conf α} {umax : Nat}

/-- C77: a box has been leaked for each `ArcSliceData` put to use and for each `DataGuard` put to use, at any time, whatever the threads do.
(Not counted: `ArcSliceData` that lost a race and were never in use.) -/
theorem C77_exact (h : Conf.PReach P zst c) : c.boxesMade = c.recordsMade + c.guardsMade := h.boxes

/-- C77: whatever happens, either nothing is leaked, or one box is, in a step of a call of `new`, `into_immut`, `clone_left`,
`clone_right` or `upgrade` that has not returned. So all other calls leak nothing. -/
theorem C77_who (h : Conf.PReach P zst c) (hs : Conf.PStep c (.ok c')) :
    c'.boxesMade = c.boxesMade ∨
    (c'.boxesMade = c.boxesMade + 1 ∧ ∃ (i : Nat) (cl : Call α), c.calls[i]? = some cl ∧ cl.op.guarding = true ∧ cl.fin = false ∧ c.step i = .ok c') := by
  have run : ∀ {i : Nat}, c.step i = .ok c' → c'.boxesMade = c.boxesMade ∨
      (c'.boxesMade = c.boxesMade + 1 ∧ ∃ (i : Nat) (cl : Call α), c.calls[i]? = some cl ∧ cl.op.guarding = true ∧ cl.fin = false ∧ c.step i = .ok c') := by
    intro i e
    cases CStep.of e with
    | none hi => exact .inl rfl
    | task cl t ts a' new hi ht e1 => exact .inl (nbox_task e1).1
    | pc cl a' n hi ht e1 =>
      have p := PStep.of e1
      cases hg : cl.op.guarding with
      | false => exact .inl (still_pc p (h.Still i cl hi hg)).2
      | true =>
        by_cases hn : a'.nbox = c.a.nbox
        · exact .inl hn
        · obtain ⟨h1, h2⟩ := one_pc p hn
          exact .inr ⟨h1, i, cl, hi, hg, by simp [Call.fin, h2], e⟩
  cases hs with
  | step _ h1 =>
    generalize hr : Except.ok (ε := UB) c' = r at h1
    have hr' := hr.symm
    clear hr
    cases h1
    case run i => rw [hr']; exact run hr'
    case start c2 op e => cases hr'; rw [Conf.boxesMade, (Conf.start_T e).2]; exact .inl rfl
    case write k en j x hk hw =>
      rcases Conf.write_cases hr' with rfl | ⟨_, _, rfl⟩
      · exact .inl rfl
      · exact .inl rfl
  | panic _ i e =>
    simp only [Conf.panic] at e
    split at e
    · split at e
      · cases e; exact .inl rfl
      · cases e
    · cases e

/-- C77: the other calls leak nothing: `clone`, `downgrade`, `get_mut`, `into_mut`, `drop`, all calls of `ArcSliceMut` and its iterators but `into_immut`. -/
theorem C77_others (h : Conf.PReach P zst c) {i : Nat} {cl : Call α} (hi : c.calls[i]? = some cl) (hg : cl.op.guarding = false) (e : c.step i = .ok c') :
    c'.boxesMade = c.boxesMade := by
  cases CStep.of e with
  | none _ => rfl
  | task cl1 t ts a' new hi1 ht e1 => exact (nbox_task e1).1
  | pc cl1 a' n hi1 ht e1 => rw [hi] at hi1; cases hi1; exact (still_pc (PStep.of e1) (h.Still i cl hi hg)).2

theorem C77_others_run (h : Conf.Reach P zst c) {i n : Nat} {cl : Call α} (hi : c.calls[i]? = some cl) (hg : cl.op.guarding = false) (e : steps c i n = .ok c') :
    c'.boxesMade = c.boxesMade := by
  induction n generalizing c cl with
  | zero => cases e; rfl
  | succ n ih =>
    obtain ⟨c2, e1, e2⟩ := Arc.bind_ok e
    have h2 := C77_others h.preach hi hg e1
    obtain ⟨cl2, h3, h4⟩ : ∃ cl2, c2.calls[i]? = some cl2 ∧ cl2.op = cl.op := by
      have hl := (List.getElem?_eq_some_iff.1 hi).1
      cases CStep.of e1 with
      | none hn => rw [hi] at hn; cases hn
      | task cl1 t ts a' new hi1 ht e1 => rw [hi] at hi1; cases hi1; exact ⟨_, List.getElem?_set_self hl, rfl⟩
      | pc cl1 a' n hi1 ht e1 => rw [hi] at hi1; cases hi1; exact ⟨_, List.getElem?_set_self hl, rfl⟩
    exact (ih (.run h i e1) h3 (by rw [h4]; exact hg) e2).trans h2

/-- C77: there is no bound. A program with one thread makes a slice of two items; `n` times, it takes the left half and drops it
again; then it drops the slice. It has at most two handles at any time and none in the end, and has leaked `n + 3` boxes. -/
theorem C77_unbounded (hu : 2 ≤ umax) {n : Nat} (hn : 0 < n) :
    ∃ os s, (Seq.init false).Run umax (halvesOf 1 2 n ++ [.drop 0]) os s ∧ (∀ k, s.at' k = none) ∧ s.c.boxesMade = n + 3 := by
  obtain ⟨n, rfl⟩ : ∃ m, n = m + 1 := ⟨n - 1, by omega⟩
  obtain ⟨os, s, h1, h2, h3⟩ := halves_run hu n
  obtain ⟨s', os', w, h4, hw⟩ := C42_every_history umax false (halvesOf 1 2 (n + 1) ++ [.drop 0])
  refine ⟨os', s', h4, ?_⟩
  clear hw w
  obtain ⟨o, h5⟩ : ∃ o, s.Does umax (.drop 0) o s' := by
    have r := C42_is_threaded h1
    generalize halvesOf 1 2 (n + 1) = l at h1 h4
    clear r h2 h3
    generalize Seq.init false = s0 at h1 h4
    induction h1 generalizing os' with
    | nil => cases h4 with | cons a b => cases b; exact ⟨_, a⟩
    | cons a _ ih =>
      cases h4 with
      | cons a' b =>
        obtain ⟨_, rfl⟩ := Does.det a a'
        exact ih _ b
  have at0 : s.at' 0 = some (.slice 0 1 0) := by simp only [Seq.at', h2.tab, h2.hk]
  generalize ho : (Spec.Op.drop 0 : Spec.Op Nat) = op at h5
  cases h5 <;> try cases ho
  case drop it c2 h hk ha hm =>
    rw [h2.tab] at hm; cases hm
    constructor
    · intro k
      have : (s.tab.set 0 none)[k]?.join = none := by
        rw [List.getElem?_set]
        split
        · split <;> rfl
        · next h => exact h2.rest k fun e => h e.symm
      simp only [Seq.at', Seq.del, Seq.to, this]
    · obtain ⟨c1, m, cl, e1, e2, e3, e4, e5, e6⟩ := h
      have r := C42_is_threaded h1
      have hq : alone s.c (.drop 0) := h2.fin
      have r1 : Conf.Reach alone false c1 := .start r _ hq e1
      obtain ⟨cl0, f1, f2⟩ := start_takes rfl e1
      have hb : s.c.boxesMade = n + 4 := h3
      have g1 : c1.calls[s.c.calls.length]? = some cl0 := by rw [f1]; simp
      show c2.boxesMade = _
      rw [C77_others_run r1 g1 (by rw [f2]; rfl) e2, Conf.boxesMade, (Conf.start_T e1).2]
      exact hb
  case invalid h => simp only [Seq.takes, at0] at h; cases h

/-! ## Programs that meet the hypotheses -/

/-- The whole and its left half: two records, two guards. -/
example : (pafter manyArcs).recordsMade = 2 ∧ (pafter manyArcs).guardsMade = 2 ∧ (pafter manyArcs).boxesMade = 4 := by decide +kernel
/-- The program of `C77_unbounded`. -/
example : halvesOf 1 2 2 = [.rcNew [1, 2], .cloneSide .L 0, .drop 1, .cloneSide .L 0, .drop 2] := rfl
/-- There have been calls of both sorts. -/
example : ((pafter manyArcs).calls.map (·.op.guarding)).count true ≠ 0 ∧ ((pafter manyArcs).calls.map (·.op.guarding)).count false ≠ 0 := by decide +kernel

end Verif

import Verif.Arc.Proofs.DropIn
/-!
# C56: a drop drops only what its handle showed

Dropping an `ArcSlice` or `ArcSliceMut` drops no items but those the handle showed, whatever other threads do at the time and
even if destructors panic. In particular, no destructor is run if all these items are shown by other handles.
-/

namespace Verif
open Arc
open Spec (Side Slot Rng End)
variable {α : Type} {P : Rules α} {zst : Bool} {c c1 c2 c3 c' : Conf α} {W : Nat → Nat → Prop}

namespace Arc

theorem drop_start (B : c.BI) {k : Nat} (hs : c.start (.drop k) = some c1) : c1.DropsIn (c.Shows k) c.calls.length := by
  have tk : ∀ {pc ts}, (c.taking (.drop k) k pc ts).calls[c.calls.length]? = some { op := .drop k, pc, tasks := ts, on := c.node k } := by
    intros; simp [Conf.taking]
  cases SStep.of hs with
  | dropS k d g hk hb =>
    obtain ⟨b, o, l, h1, e, h2, h3⟩ := strong_at B hk
    rw [hk] at h2; cases h2
    refine ⟨_, tk, .inl ⟨_, rfl⟩, fun t ht => ?_⟩
    rw [List.mem_singleton] at ht; subst ht
    refine ⟨h1.lt, .inr ⟨b, o, l, h1, fun j h4 h5 => ⟨_, o, l, hk, ?_, h4, h5⟩⟩⟩
    simp only [Conf.seen] at h3
    split at h3
    · next v hv => cases h3; simp only [Conf.range, hv]; rfl
    · cases h3
  | dropW k d g m hk hb => exact ⟨_, tk, .inr ⟨_, rfl⟩, fun t ht => by cases ht⟩
  | dropU k r m hk hb =>
    refine ⟨_, tk, .inl ⟨_, rfl⟩, fun t ht => ?_⟩
    rw [List.mem_singleton] at ht; subst ht
    exact fun j h4 h5 => ⟨_, _, _, hk, rfl, h4, h5⟩

end Arc

/-- C56: handle `k` is dropped in situation `c`, by call number `c.calls.length`. When this call later drops an item, it is one that `k` showed. -/
theorem C56_drop (hP : PTame P) (h : Conf.PReach P zst c) {k : Nat} (hp : P c (.drop k)) (hs : c.start (.drop k) = some c1) (run : PRun P W c1 c2)
    (e : c2.step c.calls.length = .ok c3) {b j : Nat} {x : α} (h1 : c2.a.b.slot b j = .live x) (h2 : c3.a.b.slot b j ≠ .live x) : c.Shows k b j := by
  have hr1 := h.start _ hp hs
  have hr := run.reach hr1
  have B := hr.BI hP
  obtain ⟨cl, h3, h4, h5⟩ := (drop_start (h.BI hP) hs).run hP hr1 run
  cases CStep.of e with
  | none hc => rw [h3] at hc; cases hc
  | task cl2 t ts a' new hi ht e2 =>
    rw [h3] at hi; cases hi
    have h6 := h5 t (by rw [ht]; simp)
    have h2 : a'.b.slot b j ≠ .live x := h2
    cases t with
    | slice d g =>
      obtain ⟨⟨h', ts'⟩, e1, e2⟩ := Arc.bind_ok e2
      cases Arc.pure_ok e2
      have := dropStrong_slot e1
      exact (h2 (by show h'.slot b j = _; rw [this]; exact h1)).elim
    | guard g =>
      simp only [ataskStep, Arena.dropG] at e2
      repeat' split at e2
      all_goals first | (cases e2; done) | (cases e2; exact absurd h1 h2)
    | base t =>
      obtain ⟨⟨h', ts'⟩, e1, e2⟩ := Arc.bind_ok e2
      cases Arc.pure_ok e2
      cases t with
      | dropS d =>
        have := dropStrong_slot e1
        exact (h2 (by show h'.slot b j = _; rw [this]; exact h1)).elim
      | dropRcSlice d i => exact h6.elim
      | userCode => cases e1; exact absurd h1 h2
      | dropReg r =>
        simp only [Rc.taskStep] at e1
        split at e1
        · cases e1; exact absurd h1 h2
        · next hl =>
          split at e1
          · cases e1
          · split at e1
            · cases e1
              by_cases hb : b = r.buf ∧ j = r.off
              · obtain ⟨rfl, rfl⟩ := hb
                exact h6 _ (Nat.le_refl _) (by omega)
              · refine absurd ?_ h2
                rw [← h1]
                show Rc.upd c2.a.b.slot r.buf (Rc.upd (c2.a.b.slot r.buf) r.off .dropped) b j = _
                by_cases hb' : b = r.buf
                · subst hb'
                  rw [Rc.upd_same]
                  exact if_neg fun h => hb ⟨rfl, h⟩
                · simp [Rc.upd, hb']
            · cases e1
  | pc cl2 a' n hi ht e2 =>
    rw [h3] at hi; cases hi
    refine absurd h1 ?_
    have h2 : a'.b.slot b j ≠ .live x := h2
    rcases h4 with ⟨re, h4⟩ | ⟨g, h4⟩
    · rw [h4] at e2; cases e2; exact h2
    · rw [h4] at e2
      cases Arc.PStep.of e2 with
      | wdN => exact h2
      | wd => exact h2

/-- C56: if a destructor panics in this call, the items that are lost for that reason are ones that `k` showed. -/
theorem C56_lost (hP : PTame P) (h : Conf.PReach P zst c) {k : Nat} (hp : P c (.drop k)) (hs : c.start (.drop k) = some c1) (run : PRun P W c1 c2)
    (e : c2.panic c.calls.length = some c3) {b j : Nat} (hl : c3.a.b.slot b j ≠ c2.a.b.slot b j) : c.Shows k b j := by
  have hr1 := h.start _ hp hs
  have hr := run.reach hr1
  obtain ⟨cl, h3, h4, h5⟩ := (drop_start (h.BI hP) hs).run hP hr1 run
  obtain ⟨cl2, r, ts, ts', us, s, p⟩ := Panicked.of (hr.BI hP).heap e
  have hi := p.call; rw [h3] at hi; cases hi
  obtain ⟨⟨r', h6, rfl, h7, h8⟩, _⟩ := C53_lost hP hr e h3 p.tasks hl
  exact h5 (.base (.dropReg r')) (by rw [p.tasks]; simp [h6]) j h7 h8

/-- C56: … and when it runs a destructor, an item that `k` showed has just been dropped. So if all items it showed are shown by other handles,
it runs none, and does not panic. -/
theorem C56_covered (hP : PTame P) (h : Conf.PReach P zst c) {k : Nat} (hp : P c (.drop k)) (hs : c.start (.drop k) = some c1) (run : PRun P W c1 c2)
    (hc : ∀ b j, c.Shows k b j → ∃ k', c2.Shows k' b j) :
    (∀ cl, c2.calls[c.calls.length]? = some cl → .base .userCode ∉ cl.tasks) ∧ c2.panic c.calls.length = none := by
  have hr1 := h.start _ hp hs
  have hr := run.reach hr1
  obtain ⟨cl, h3, h4, h5⟩ := (drop_start (h.BI hP) hs).run hP hr1 run
  have key : .base .userCode ∉ cl.tasks := by
    intro hu
    obtain ⟨b, j, h6, h7⟩ := h5 _ hu
    obtain ⟨k', h8⟩ := hc b j h6
    obtain ⟨⟨x, h9⟩, _⟩ := C53_shown_is_there hP hr h8
    rw [h9] at h7; cases h7
  refine ⟨fun cl2 h6 => by rw [h3] at h6; cases h6; exact key, ?_⟩
  cases hq : c2.panic c.calls.length with
  | none => rfl
  | some c3 =>
    obtain ⟨cl2, r, ts, ts', us, s, p⟩ := Panicked.of (hr.BI hP).heap hq
    have := p.call; rw [h3] at this; cases this
    exact absurd (by rw [p.tasks]; simp) key

/-! ## Examples -/

namespace Arc

def pfrom (c : Conf Nat) (as : List (PAct Nat)) : Conf Nat := match pexec (fun c op => c.strict op) c as with
  | some (.ok c) => c
  | _ => Conf.init false

theorem run_of {c c' : Conf Nat} {as : List (PAct Nat)} (h : wentWell (pexec (fun c op => c.strict op) c as) = true)
    (e : pfrom c as = c') :
    PRun (fun c op => c.strict op = true) (fun _ _ => True) c c' := by
  cases hx : pexec (fun c op => c.strict op) c as with
  | none => rw [hx] at h; cases h
  | some x => cases x with
    | error u => rw [hx] at h; cases h
    | ok c2 =>
      simp only [pfrom, hx] at e
      exact e ▸ pexec_run hx

/-- Two handles to the same five items. Handle 1 is dropped (by call 2), then handle 0, by another thread, which is faster. -/
def dropOne : Conf Nat := (Conf.start (pafter twoHandles) (.drop 1)).getD (Conf.init false)

def raced : List (PAct Nat) := [.act (.op (.drop 0)), .act (.run 3 30), .act (.run 2 3)]

def halves : List (PAct Nat) :=
  [.act (.op (.new [1, 2, 3, 4, 5])), .act (.run 0 8), .act (.op (.cloneSide .L 0)), .act (.run 1 30), .act (.op (.cloneSide .R 0)), .act (.run 2 30)]

def dropWhole : Conf Nat := (Conf.start (pafter halves) (.drop 0)).getD (Conf.init false)

/-- The first half is created and dropped again; the whole still has it in its cache. -/
def leftGone : List (PAct Nat) :=
  [.act (.op (.new [1, 2, 3, 4, 5])), .act (.run 0 8), .act (.op (.cloneSide .L 0)), .act (.run 1 30), .act (.op (.drop 1)), .act (.run 2 30)]

def dropGone : Conf Nat := (Conf.start (pafter leftGone) (.drop 0)).getD (Conf.init false)

end Arc

/-- C56_drop: the item with index 1 is dropped by the fourth step of call 2. -/
example : Conf.PReach (fun c op => c.strict op = true) false (pafter twoHandles) ∧ (pafter twoHandles).start (.drop 1) = some dropOne ∧
    (pafter twoHandles).strict (.drop 1) = true ∧ PRun (fun c op => c.strict op = true) (fun _ _ => True) dropOne (pfrom dropOne raced) :=
  ⟨pexec_reach (as := twoHandles) .init rfl, rfl, rfl, run_of (by decide +kernel) rfl⟩

example : (pafter twoHandles).calls.length = 2 ∧ (pfrom dropOne raced).a.b.slot 0 1 = .live 2 ∧
    ((pfrom dropOne raced).step 2).toOption.map (fun c => c.a.b.slot 0 1) = some .dropped :=
  ⟨by decide, by decide +kernel, by decide +kernel⟩

/-- C56_lost: a destructor that panics in the first half makes the second half leak. -/
example : Conf.PReach (fun c op => c.strict op = true) false (pafter leftGone) ∧ (pafter leftGone).start (.drop 0) = some dropGone ∧
    (pafter leftGone).strict (.drop 0) = true ∧ PRun (fun c op => c.strict op = true) (fun _ _ => True) dropGone (pfrom dropGone [.act (.run 3 3)]) ∧
    (pfrom dropGone [.act (.run 3 3)]).a.b.slot 0 4 = .live 5 ∧
    ((pfrom dropGone [.act (.run 3 3)]).panic 3).map (fun c => c.a.b.slot 0 4) = some .moved :=
  ⟨pexec_reach (as := leftGone) .init rfl, rfl, rfl, run_of (by decide +kernel) rfl, by decide +kernel, by decide +kernel⟩

/-- C56_covered: both halves are kept by other handles all the time that the whole is being dropped. -/
example : Conf.PReach (fun c op => c.strict op = true) false (pafter halves) ∧ (pafter halves).start (.drop 0) = some dropWhole ∧
    (pafter halves).strict (.drop 0) = true ∧ PRun (fun c op => c.strict op = true) (fun _ _ => True) dropWhole (pfrom dropWhole [.act (.run 3 3)]) :=
  ⟨pexec_reach (as := halves) .init rfl, rfl, rfl, run_of (by decide +kernel) rfl⟩

example : (((pafter halves).get 0).bind (pafter halves).seen) = some (.shared 0 0 5) ∧
    ((pfrom dropWhole [.act (.run 3 3)]).get 1).bind (pfrom dropWhole [.act (.run 3 3)]).seen = some (.shared 0 0 2) ∧
    ((pfrom dropWhole [.act (.run 3 3)]).get 2).bind (pfrom dropWhole [.act (.run 3 3)]).seen = some (.shared 0 2 3) :=
  ⟨by decide +kernel, by decide +kernel, by decide +kernel⟩

end Verif

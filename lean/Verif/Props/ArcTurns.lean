import Verif.Arc.Proofs.Starve
import Verif.Props.ArcDrop
/-!
# C66: which calls others can hold up, and which not

`clone`, `get_mut`, `into_mut`, `drop`, making slices, and all that can be done with an `ArcSliceMut` are done after a bounded number of
turns, whatever other threads do in between, even if they go on making calls for ever. The bound depends on the size of the slice and
on how often it was halved.

`clone_left`, `clone_right`, `downgrade` and `upgrade` are not like that.
-/

namespace Verif
open Arc
open Spec (Side Slot Rng End)
open Rc (Lab)
variable {α : Type} {P : Rules α} {zst : Bool} {c c1 c2 : Conf α}

namespace Arc

theorem size_strong (A : c.IA false) {k d g : Nat} {b : Bool} (hk : c.get k = some ⟨.strong d g, b⟩) :
    ∃ v, c.a.b.sk.node d = some (.data v) ∧ c.size ⟨.strong d g, b⟩ = v.len ∧ c.a.gOf g = d := by
  have he := A.bi.ents k _ hk
  obtain ⟨v, hv⟩ := A.bi.heap.data (ref_mem_aS (Conf.get_tok' hk (t := .ref d) (by simp [entT]))) he
  have hg : ofG c.a d g := A.gf.ents k _ hk
  refine ⟨v, hv, ?_, hg.2⟩
  simp [Conf.size, Conf.range, Rc.Heap.getData, hv, bind, Except.bind, pure, Except.pure]

theorem last {β : Type} (l : List β) (x : β) : (l ++ [x])[l.length]? = some x := by simp

/-- The bound holds when the call starts. -/
theorem Turn.init (A : c.IA false) {op : Op α} (e : c.start op = some c1) {n : Nat} (hn : c.maxTurns op = some n) : Turn c1 c.calls.length n := by
  have drp : ∀ m, dropTurns m ≤ 11 * m + 3 := fun m => by simp only [dropTurns]; split <;> omega
  have tk : ∀ m, takeTurns m ≤ 13 * m + 4 := fun m => by simp only [takeTurns]; split <;> omega
  cases SStep.of e with
  | new xs | mutNew xs =>
    cases hn
    exact ⟨_, last _ _, by simp [own1], by simp [wtC, wtP]⟩
  | weakNew | cloneSide | endMut | downgrade | upgrade => cases hn
  | clone k d g hk | cloneW k d g b hk =>
    cases hn
    exact ⟨_, last _ _, trivial, by simp [wtC, wtP]⟩
  | getMut k d g hk hb | splitOff s k r b hk hb | next en k r b hk hb | cut en m k r b hk hb =>
    cases hn
    exact ⟨_, last _ _, trivial, by simp [wtC, wtP]⟩
  | intoImmut k r b hk hb =>
    cases hn
    exact ⟨_, last _ _, by simp [own1, Conf.node, hk], by simp [wtC, wtP]⟩
  | intoMut k d g hk hb =>
    simp only [Conf.maxTurns, hk, Option.map_some, Option.some.injEq] at hn
    obtain ⟨v, hv, hs, hg⟩ := size_strong A hk
    refine ⟨_, last _ _, trivial, ?_⟩
    have := tk v.len
    simp only [wtC, wtP, Conf.taking, wtK, hv, wtG, dp, hg, List.map_nil, List.sum_nil]
    rw [hs] at hn
    simp only [Conf.depth] at hn
    omega
  | dropS k d g hk hb =>
    simp only [Conf.maxTurns, hk, Option.map_some, Option.some.injEq] at hn
    obtain ⟨v, hv, hs, hg⟩ := size_strong A hk
    refine ⟨_, last _ _, trivial, ?_⟩
    have := drp v.len
    simp only [wtC, wtP, wtT, Conf.taking, wtD, hv, wtG, dp, hg, List.map_nil, List.sum_nil, List.map_cons, List.sum_cons]
    rw [hs] at hn
    simp only [Conf.depth] at hn
    omega
  | dropW k d g b hk hb =>
    simp only [Conf.maxTurns, hk, Option.map_some, Option.some.injEq] at hn
    refine ⟨_, last _ _, trivial, ?_⟩
    simp only [wtC, wtP, List.map_nil, List.sum_nil]
    omega
  | dropU k r b hk hb =>
    simp only [Conf.maxTurns, hk, Option.map_some, Option.some.injEq] at hn
    refine ⟨_, last _ _, trivial, ?_⟩
    have : c.size ⟨.uniq r, b⟩ = r.len := rfl
    simp only [wtC, wtP, wtT, List.map_nil, List.sum_nil, List.map_cons, List.sum_cons]
    omega

end Arc

/-- A call is started, after which anything may happen. Once the call has had as many turns as `maxTurns` says, it has returned. -/
theorem C66_bounded (hP : PTame P) (h : Conf.PReach P zst c) {op : Op α} (hp : P c op) (e : c.start op = some c1) {n : Nat}
    (hn : c.maxTurns op = some n) {is : List Nat} (m : Moves P c1 c2 is) (ht : n ≤ is.count c.calls.length) :
    ∃ cl, c2.calls[c.calls.length]? = some cl ∧ cl.fin = true := by
  have t := m.turn hP (.start h op hp e) (Turn.init (h.IA' hP) e hn)
  rw [Nat.sub_eq_zero_of_le ht] at t
  exact t.fin

/-! ## Calls that others can hold up -/

namespace Arc

/-- The calls `I` can be held up for ever by others that make calls like `kind`: they can have any number of turns without
returning, while the calls of others return. -/
def HeldUp (P : Rules α) (c : Conf α) (I : Nat → Prop) (kind : Op α → Bool) : Prop :=
  ∀ n, ∃ c' is, Moves P c c' is ∧ (∀ i, I i → n ≤ is.count i ∧ ∃ cl, c'.calls[i]? = some cl ∧ cl.fin = false) ∧
    (∀ (l : Nat) cl, c'.calls[l]? = some cl → ¬ I l → cl.fin = true) ∧ n ≤ ((c'.calls.map (·.op)).drop c.calls.length).countP kind

theorem Kept0.held {i j : Nat} {s : Side} {d g k : Nat} {v : GuardV} (hP : ∀ c k, P c (.getMut k)) (K : Kept0 i j s c d g k v) :
    HeldUp P c (fun l => l = i ∨ l = j) Op.isGetMut := by
  intro n
  obtain ⟨c', is, k', v', ops, m, h1, h2, K', h3, h4⟩ := K.rounds hP n
  refine ⟨c', is, m, ?_, fun l cl hl hI => K'.fin l cl hl (fun h => hI (.inl h)) (fun h => hI (.inr h)), ?_⟩
  · obtain ⟨cli, hi, hti, hpi⟩ := K'.ci
    obtain ⟨clj, hj, htj, hpj⟩ := K'.cj
    rintro l (rfl | rfl)
    · exact ⟨h1, cli, hi, by simp [Call.fin, hpi, Pc.isDone]⟩
    · exact ⟨h2, clj, hj, by simp [Call.fin, hpj, Pc.isDone]⟩
  · rw [h3, List.drop_left' (by simp)]; exact h4

theorem Kept1.held {i k d : Nat} (hP : ∀ c k, P c (.upgrade k)) (hP' : ∀ c k, P c (.drop k)) (K : Kept1 i k d c) :
    HeldUp P c (fun l => l = i) Op.isUpgrade := by
  intro n
  obtain ⟨c', is, ops, m, h1, K', h3, h4⟩ := K.rounds hP hP' n
  refine ⟨c', is, m, ?_, fun l cl hl hI => K'.fin l cl hl hI, ?_⟩
  · obtain ⟨cli, hi, hti, hpi⟩ := K'.ci
    rintro l rfl
    exact ⟨h1, cli, hi, by simp [Call.fin, hpi, Pc.isDone]⟩
  · rw [h3, List.drop_left' (by simp)]; exact h4

/-- Execute a schedule in which calls are restricted. -/
def qafter (p : Op Nat → Bool) (as : List (PAct Nat)) : Conf Nat := match pexec (fun _ op => p op) (Conf.init false) as with
  | some (.ok c) => c
  | _ => Conf.init false

theorem qafter_reach {p : Op Nat → Bool} {as : List (PAct Nat)} (h : wentWell (pexec (fun _ op => p op) (Conf.init false) as) = true) :
    Conf.PReach (only fun op => p op = true) false (qafter p as) := by
  cases hx : pexec (fun _ op => p op) (Conf.init false) as with
  | none => rw [hx] at h; cases h
  | some x => cases x with
    | error u => rw [hx] at h; cases h
    | ok c2 =>
      have e : qafter p as = c2 := by simp only [qafter, hx]
      rw [e]
      exact pexec_reach .init hx

/-- No `upgrade`. -/
def noUp (op : Op α) : Bool := !op.isUpgrade

/-- No `into_mut` and no `get_mut`. -/
def noMut (op : Op α) : Bool := !op.isIntoMut && !op.isGetMut

/-- Handles 0 and 1 to the same slice; a call of `downgrade` (2) and one of `clone_left` or `clone_right` (3) on handle 0 have been started. -/
def waiting (s : Side) : List (PAct Nat) :=
  [.act (.op (.new [5, 6])), .act (.run 0 30), .act (.op (.clone 0)), .act (.run 1 30), .act (.op (.downgrade 0)), .act (.op (.cloneSide s 0))]

/-- A slice with two `WeakSlice`s (1, 2) and an `upgrade` in flight (call 3), which is what keeps the items alive. -/
def racing : List (PAct Nat) :=
  [.act (.op (.new [5, 6])), .act (.run 0 30), .act (.op (.downgrade 0)), .act (.run 1 30), .act (.op (.clone 1)), .act (.run 2 30), .act (.op (.upgrade 1)),
    .act (.run 3 1), .act (.op (.drop 0)), .act (.run 4 30), .act (.run 3 3)]

theorem borrow_lt {c : Conf α} (h : (c.calls.all fun cl => cl.borrow.all (· < c.hs.length)) = true) :
    ∀ cl ∈ c.calls, ∀ b, cl.borrow = some b → b < c.hs.length := by
  intro cl hcl b hb
  have := List.all_eq_true.1 h cl hcl
  simpa [hb] using this

theorem fin_but {c : Conf α} {I : Nat → Bool} (h : ((List.range c.calls.length).all fun l => I l || c.calls[l]?.all Call.fin) = true) :
    ∀ (l : Nat) cl, c.calls[l]? = some cl → I l = false → cl.fin = true := by
  intro l cl hl hI
  have := List.all_eq_true.1 h l (List.mem_range.2 (List.getElem?_eq_some_iff.1 hl).1)
  simpa [hl, hI] using this

theorem waiting_kept (s : Side) : Kept0 2 3 s (qafter noUp (waiting s)) 1 0 1 ⟨none, false, false⟩ := by
  cases s
  all_goals
    exact ⟨by decide +kernel, by decide +kernel, borrow_lt (by decide +kernel), ⟨_, rfl, rfl, rfl⟩, ⟨_, rfl, rfl, rfl⟩,
      fun l cl hl h1 h2 => fin_but (I := fun l => l == 2 || l == 3) (by decide +kernel) l cl hl (by simp [h1, h2]),
      by decide +kernel, rfl, rfl, by decide +kernel, by decide +kernel⟩

theorem racing_kept : Kept1 3 2 1 (qafter noMut racing) :=
  ⟨⟨some 0, false, by decide +kernel⟩, borrow_lt (by decide +kernel), ⟨_, rfl, rfl, rfl⟩,
    fun l cl hl h1 => fin_but (I := fun l => l == 3) (by decide +kernel) l cl hl (by simp [h1]),
    ⟨_, rfl⟩, by decide +kernel, by decide +kernel, by rintro g hg; have : (qafter noMut racing).a.tgt ((qafter noMut racing).a.box 1) = some 0 := by decide +kernel
                                                       rw [this] at hg; cases hg; decide +kernel, by decide +kernel⟩

end Arc

/-- `downgrade`, and `clone_left` or `clone_right`, can be held up for ever by other threads that call `get_mut` on another handle to the same
slice (which is refused each time). No `upgrade` is involved. -/
theorem C66_waiting_starves (s : Side) : ∃ (c : Conf Nat) (i j k : Nat), Conf.PReach (only fun op => noUp op = true) false c ∧
    c.calls[i]?.map (·.op) = some (.downgrade k) ∧ c.calls[j]?.map (·.op) = some (.cloneSide s k) ∧
    HeldUp (only fun op => noUp op = true) c (fun l => l = i ∨ l = j) Op.isGetMut := by
  refine ⟨qafter noUp (waiting s), 2, 3, 0, qafter_reach ?_, ?_, ?_, (waiting_kept s).held fun _ _ => rfl⟩
  · cases s <;> decide +kernel
  · cases s <;> rfl
  · cases s <;> rfl

/-- `upgrade` can be held up for ever by other threads that call `upgrade` on another `WeakSlice` of the same slice, and drop what they get.
Neither `get_mut` nor `into_mut` is involved. -/
theorem C66_upgrade_starves : ∃ (c : Conf Nat) (i k : Nat), Conf.PReach (only fun op => noMut op = true) false c ∧
    c.calls[i]?.map (·.op) = some (.upgrade k) ∧ HeldUp (only fun op => noMut op = true) c (fun l => l = i) Op.isUpgrade :=
  ⟨qafter noMut racing, 3, 1, qafter_reach (by decide +kernel), rfl, racing_kept.held (fun _ _ => rfl) fun _ _ => rfl⟩

/-! ## Examples -/

namespace Arc

/-- The right half of an array of five items, which has been halved again; the other handles have been dropped. -/
def treeLeft : List (PAct Nat) :=
  [.act (.op (.new [5, 6, 7, 8, 9])), .act (.run 0 30), .act (.op (.cloneSide .R 0)), .act (.run 1 30), .act (.op (.cloneSide .L 1)), .act (.run 2 30),
    .act (.op (.drop 0)), .act (.run 3 60)]

/-- The same with a call of `get_mut` (4) on another handle that has closed the gates. -/
def busyTree : List (PAct Nat) := treeLeft ++ [.act (.op (.getMut 2)), .act (.run 4 3)]

theorem busy_reach : Conf.PReach (fun c op => c.strict op = true) false (pafter busyTree) :=
  (run_of (c := Conf.init false) (as := busyTree) (by decide +kernel) rfl).reach .init

def dropTree : Conf Nat := ((pafter busyTree).start (.drop 1)).getD (Conf.init false)

end Arc

/-- The hypotheses are met, and how the bounds look: dropping a handle to a slice of three items that is one half of the whole may take 38 turns. -/
example : Conf.PReach (fun c op => c.strict op = true) false (pafter busyTree) ∧ (pafter busyTree).strict (.drop 1) = true ∧
    (pafter busyTree).start (.drop 1) = some dropTree ∧ (pafter busyTree).maxTurns (.drop 1) = some 38 ∧
    (pafter busyTree).maxTurns (.intoMut 1) = some 51 ∧ (pafter busyTree).maxTurns (.getMut 1) = some 7 ∧ (pafter busyTree).maxTurns (.downgrade 1) = none :=
  ⟨busy_reach, by decide +kernel, rfl, by decide +kernel, by decide +kernel, by decide +kernel, by decide +kernel⟩

/-- It is done much faster; the other call has not had a single turn. -/
example : ((pfrom dropTree [.act (.run 5 1)]).calls[5]?.map Call.fin) = some false ∧
    ((pfrom dropTree [.act (.run 5 12)]).calls.map Call.fin) = [true, true, true, true, false, true] :=
  ⟨by decide +kernel, by decide +kernel⟩

/-- The rules of the examples of starvation are those of the other theorems. -/
example : PStrict (only fun op : Op Nat => noUp op = true) ∧ PTame (only fun op : Op Nat => noMut op = true) :=
  ⟨pstrict_noUpgrade fun op h => by cases op <;> simp_all [noUp, Op.isUpgrade, Op.NoUpgrade],
   ptame_noIntoMut fun op h => by cases op <;> simp_all [noMut, Op.isIntoMut, Op.NoIntoMut]⟩

end Verif

import Verif.Arc.Proofs.Child
import Verif.Props.ArcSafety
/-!
# C36: concurrent subslicing converges to one child

For every number of threads and every interleaving of their steps, in programs where no call
of `WeakSlice::upgrade` overlaps a call of `into_mut` on a larger slice (`Tame`).
-/

namespace Verif
open Arc
open Spec (Side Slot Rng)
variable {α : Type} {P : Rules α} {zst : Bool} {c c' : Conf α}

/-- The call has made a new child node, has found that another thread was faster
(arc_slice.rs:142-157), and has not yet got rid of the node. -/
def Arc.Call.discards (cl : Call α) : Prop :=
  (cl.tasks = [] ∧ ∃ d r, cl.pc = .csLose d r) ∨ (cl.tasks ≠ [] ∧ ∃ x fs y, cl.pc = .gLoad x fs y)

/-- C36: whenever two calls of `clone_left` (or two of `clone_right`) on the same handle
have returned handles, these are handles to the same slice, and share its guard. -/
theorem C36_same_child (hP : Tame P) (h : Conf.Reach P zst c) {i j k : Nat} {s : Side} {cl cl' : Call α} {m m' d d' g g' : Nat} {b b' : Bool}
    (hi : c.calls[i]? = some cl) (hj : c.calls[j]? = some cl') (ho : cl.op = .cloneSide s k) (ho' : cl'.op = .cloneSide s k)
    (hm : m ∈ cl.out) (hm' : m' ∈ cl'.out) (hk : c.get m = some ⟨.strong d g, b⟩) (hk' : c.get m' = some ⟨.strong d' g', b'⟩) :
    d = d' ∧ g = g' := by
  have B := h.BI hP
  have F := h.GFI hP
  have hl := (h.CI hP).two i j cl cl' s k _ _ hi hj ho ho' (.inr ⟨m, d, g, b, hm, hk, rfl⟩) (.inr ⟨m', d', g', b', hm', hk', rfl⟩)
  obtain ⟨v, hv⟩ := B.heap.data (ref_mem_aS (Conf.get_tok' hk (t := .ref d) (by simp [entT]))) (B.ents m _ hk)
  obtain ⟨v', hv'⟩ := B.heap.data (ref_mem_aS (Conf.get_tok' hk' (t := .ref d') (by simp [entT]))) (B.ents m' _ hk')
  obtain rfl := B.heap.good.shape.toDShape.dataUniq _ _ _ _ hv hv' hl
  refine ⟨rfl, ?_⟩
  have guard : ∀ {m g b}, c.get m = some ⟨.strong d g, b⟩ → c.a.tgt (c.a.box d) = some g := by
    intro m g b hk
    obtain ⟨w, hw⟩ := Arc.GI.held B.gi (mem_aGd (x := g) (Conf.get_tok' hk (t := .gd g) (by simp [entT])) (by simp))
    have hg : ofG c.a d g := F.ents m _ hk
    have := F.gf.uniq g w (.data v) hw (by rw [hg.2]; exact hv)
    rwa [hg.2] at this
  have h1 := guard hk
  rw [guard hk'] at h1
  exact (Option.some.inj h1).symm

/-- C36: this child is the left (right) half of the slice: it shows the first `⌊len/2⌋` (the
remaining) items. -/
theorem C36_half (hP : Tame P) (h : Conf.Reach P zst c) {i k m : Nat} {s : Side} {cl : Call α} {d g d' g' : Nat} {bm bm' : Bool}
    (hi : c.calls[i]? = some cl) (ho : cl.op = .cloneSide s k) (hm : m ∈ cl.out)
    (hk : c.get k = some ⟨.strong d g, bm⟩) (hk' : c.get m = some ⟨.strong d' g', bm'⟩) :
    ∃ b off len, Conf.range c.a (.strong d g) = .ok (some (b, off, len)) ∧
      Conf.range c.a (.strong d' g') = .ok (some (b, ((Rng.mk off len).half s).off, ((Rng.mk off len).half s).len)) := by
  have B := h.BI hP
  have S := B.heap.good.shape.toDShape
  have hl := (h.CI hP).one i cl s k d g bm _ hi ho hk (.inr ⟨m, d', g', bm', hm, hk', rfl⟩)
  obtain ⟨v, hv⟩ := B.heap.data (ref_mem_aS (Conf.get_tok' hk (t := .ref d) (by simp [entT]))) (B.ents k _ hk)
  obtain ⟨v', hv'⟩ := B.heap.data (ref_mem_aS (Conf.get_tok' hk' (t := .ref d') (by simp [entT]))) (B.ents m _ hk')
  have range : ∀ {d v g}, c.a.b.sk.node d = some (.data v) → Conf.range c.a (.strong d g) = .ok (some (v.buf, v.off, v.len)) := by
    intro d v g hv; simp only [Conf.range, Rc.Heap.getData, hv]; rfl
  refine ⟨v.buf, v.off, v.len, range hv, ?_⟩
  rw [range hv']
  simp only [tgtL, hv] at hl
  split at hl
  · next hs =>
    obtain rfl := S.dataUniq _ _ _ _ hv' hv hl
    rw [hv] at hv'; cases hv'
    cases s
    · have h0 : v.len = 0 := by simpa [Rc.sameNode] using hs
      simp [Rng.half, Rng.left, h0]
    · have h0 : v.len ≤ 1 := by simpa [Rc.sameNode] using hs
      have h1 : v.len / 2 = 0 := by omega
      simp [Rng.half, Rng.right, h1]
  · obtain ⟨h1, h2, _⟩ := S.dataFam d v hv
    obtain ⟨h3, h4, _⟩ := S.dataFam d' v' hv'
    rw [hl] at h3 h4
    have h5 : Rng.mk v'.off v'.len = (Rng.mk v.off v.len).half s := by rw [h2]; exact h4
    rw [← h5, h3, h1]; rfl

/-- C36: a call that has lost the race leaves all items as they are while it discards its
node. -/
theorem C36_loser_drops_nothing (hP : Tame P) (h : Conf.Reach P zst c) {i : Nat} {cl : Call α} (hi : c.calls[i]? = some cl)
    (hd : cl.discards) (e : c.step i = .ok c') : c'.a.b.slot = c.a.b.slot := by
  have B := h.BI hP
  have L := h.LI hP
  cases CStep.of e with
  | none hn => rfl
  | task cl2 t ts a' new hi2 ht e2 =>
    rw [hi] at hi2; cases hi2
    rcases hd with ⟨h1, _⟩ | ⟨_, x, fs, y, hp⟩
    · rw [ht] at h1; cases h1
    · exact ((L i cl hi x fs y hp t (by rw [ht]; exact List.mem_cons_self ..)).step B.heap.base e2).1
  | pc cl2 a' n hi2 ht e2 =>
    rw [hi] at hi2; cases hi2
    rcases hd with ⟨_, d, r, hp⟩ | ⟨h1, _⟩
    · rw [hp] at e2
      cases PStep.of e2
      next e3 => obtain ⟨_, rfl⟩ := incS_some e3; rfl
    · exact absurd ht h1

/-! ## A program that meets the hypotheses -/

namespace Arc

/-- Two threads call `clone_left` on the same slice of three items. Both find no child and
make one; the second one loses the race. -/
def loses : List (Act Nat) :=
  [.op (.new [1, 2, 3]), .run 0 8, .op (.cloneSide .L 0), .op (.cloneSide .L 0), .run 1 3, .run 2 3, .run 1 1, .run 2 1]

/-- … and both return. -/
def bothReturn : List (Act Nat) := loses ++ [.run 1 2, .run 2 20, .run 1 20]

theorem loses_reach : Conf.Reach (only Op.NoIntoMut) false (after loses) :=
  exec_reach (as := loses) .init (by
    intro o ho
    simp only [loses, List.mem_cons, Act.op.injEq, reduceCtorEq, false_or, List.not_mem_nil, or_false] at ho
    rcases ho with rfl | rfl | rfl <;> trivial) rfl

theorem bothReturn_reach : Conf.Reach (only Op.NoIntoMut) false (after bothReturn) :=
  exec_reach (as := bothReturn) .init (by
    intro o ho
    simp only [bothReturn, loses, List.cons_append, List.nil_append, List.mem_cons, Act.op.injEq, reduceCtorEq, false_or,
      List.not_mem_nil, or_false] at ho
    rcases ho with rfl | rfl | rfl <;> trivial) rfl

/-- The second call is about to discard its node. -/
example : ∃ cl, (after loses).calls[2]? = some cl ∧ cl.discards := ⟨_, rfl, .inl ⟨rfl, _, _, rfl⟩⟩

/-- Both calls have returned a handle to the same slice; it shows the first of the three
items. -/
example : (after bothReturn).Quiet ∧ (after bothReturn).get 1 = some ⟨.strong 2 1, false⟩ ∧
    (after bothReturn).get 2 = some ⟨.strong 2 1, false⟩ ∧
    Conf.range (after bothReturn).a (.strong 2 1) = .ok (some (0, 0, 1)) ∧
    (after bothReturn).calls.map (·.out) = [[0], [2], [1]] :=
  ⟨by unfold Conf.Quiet; decide, rfl, rfl, rfl, rfl⟩

example {d d' g g' : Nat} (h : (after bothReturn).get 1 = some ⟨.strong d g, false⟩)
    (h' : (after bothReturn).get 2 = some ⟨.strong d' g', false⟩) : d = d' ∧ g = g' :=
  C36_same_child noIntoMut_tame bothReturn_reach (i := 2) (j := 1) rfl rfl rfl rfl (List.mem_cons_self ..) (List.mem_cons_self ..) h h'

end Arc
end Verif

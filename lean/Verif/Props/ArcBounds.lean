import Verif.Arc.Proofs.Bounds
import Verif.Props.ArcUnwind
import Verif.Props.ArcLocal
/-!
# C69, C70: memory and stack

However subslices are cloned, dropped and cloned again, on however many threads, a slice of `n` items needs memory for at most `3 * n - 1` subslices; and
recursion in the code is never deeper than the tree of its subslices, which has logarithmic depth.
-/

namespace Verif
open Arc
open Spec (Side Slot Rng End)
open Rc (Lab)
variable {α : Type} {P : Rules α} {zst : Bool} {c : Conf α}

/-- C69: At most so many blocks of memory are ever allocated for the subslices of a slice, from when it is made to when all that was made of it has been dropped. (`(c.a.b.sk.fams f).rng.len` is the
number of its items.) -/
theorem C69_blocks (hP : PTame P) (h : Conf.PReach P zst c) (f : Nat) : (c.blocks f).length ≤ most (c.a.b.sk.fams f).rng.len := by
  refine (h.DI hP).hist.count id (List.nodup_range.sublist List.filter_sublist) (fun x hx => ?_) fun _ _ _ _ h => h
  have := List.mem_filter.1 hx
  simp only [Bool.and_eq_true, decide_eq_true_eq, List.mem_range] at this
  exact ⟨this.1, this.2.1, this.2.2⟩

/-- C69: There are never two of them for what is got by the same halvings (those that leave a slice as it is not counted), even if the first is long dropped. -/
theorem C69_once (hP : PTame P) (h : Conf.PReach P zst c) (f : Nat) : ((c.blocks f).map fun x => (c.a.b.sk.lab x).path).Nodup := by
  have key : ∀ x ∈ c.blocks f, x < c.a.b.sk.next ∧ c.a.b.sk.kind x = .data ∧ (c.a.b.sk.lab x).fam = f := fun x hx => by
    have := List.mem_filter.1 hx
    simp only [Bool.and_eq_true, decide_eq_true_eq, List.mem_range] at this
    exact ⟨this.1, this.2.1, this.2.2⟩
  have nd : (c.blocks f).Nodup := List.nodup_range.sublist List.filter_sublist
  refine List.pairwise_map.2 (nd.imp_of_mem fun {x y} hx hy hne he => hne ?_)
  obtain ⟨h1, h2, h3⟩ := key x hx
  obtain ⟨h4, h5, h6⟩ := key y hy
  refine (h.DI hP).hist.uniq x y h1 h4 h2 h5 ?_
  have : ∀ {l m : Lab}, l.fam = m.fam → l.path = m.path → l = m := fun {l m} a b => by cases l; cases m; simp_all
  exact this (h3.trans h6.symm) he

/-- C69: At any time there are at most so many guards. -/
theorem C69_guards (hP : PTame P) (h : Conf.PReach P zst c) (f : Nat) : (c.guards f).length ≤ most (c.a.b.sk.fams f).rng.len := by
  have key : ∀ g ∈ c.guards f, (∃ v, c.a.guard g = some v) ∧ g < c.a.ng ∧ (c.a.b.sk.lab (c.a.gOf g)).fam = f := fun g hg => by
    have := List.mem_filter.1 hg
    simp only [Bool.and_eq_true, decide_eq_true_eq, List.mem_range, Option.isSome_iff_exists] at this
    exact ⟨this.2.1, this.1, this.2.2⟩
  refine (h.DI hP).hist.count c.a.gOf (List.nodup_range.sublist List.filter_sublist) (fun g hg => ?_) fun g hg h' hh he => ?_
  · obtain ⟨_, h1, h2⟩ := key g hg
    have := (h.IA' hP).gf.gf.gof g h1
    exact ⟨this.1, this.2, h2⟩
  · obtain ⟨⟨v, hv⟩, _⟩ := key g hg
    obtain ⟨⟨w, hw⟩, _⟩ := key h' hh
    exact h.GU hP g h' v w hv hw he

theorem Arc.Conf.PReach.depth (hP : PTame P) (h : Conf.PReach P zst c) {m : Nat} (hm : ∀ b, b < c.a.b.sk.nbuf → c.a.b.sk.blen b ≤ 2 ^ m) {x : Nat}
    (hx : x < c.a.b.sk.next) (hk : c.a.b.sk.kind x = .data) : (c.a.b.sk.lab x).path.length ≤ m + 1 := by
  refine ((h.DI hP).hist.proper x hx hk).length_le ?_
  rcases (h.RI hP).fams _ ((h.BI hP).heap.good.shape.famLt x hx (by rw [hk]; simp)) with ⟨h1, h2⟩ | h2
  · have := hm _ h1; omega
  · have : 0 < 2 ^ m := Nat.pow_pos (by decide)
    omega

/-- C70: If no array that slices are made of has more than `2 ^ m` items, then in any call in flight, at any time,

* at most `m + 1` invocations of `guard` wait for the one they made themselves,
* at most `m + 2` destructors of slices are at work, the last one inside of all others,
* at most `m + 2` invocations of `forget_items` are at work, the last one inside of all others,
* the drop of a guard drops at most `m + 1` others, each inside of the previous one. -/
theorem C70_stack (hP : PTame P) (h : Conf.PReach P zst c) {m : Nat} (hm : ∀ b, b < c.a.b.sk.nbuf → c.a.b.sk.blen b ≤ 2 ^ m) :
    (∀ (i : Nat) cl, c.calls[i]? = some cl → cl.pc.callers ≤ m + 1 ∧ cl.destructors ≤ m + 2 ∧ cl.pc.unwrapped ≤ m + 2) ∧
    ∀ g n g', g < c.a.ng → Above c.a g n g' → n ≤ m + 1 := by
  have hd := fun x => h.depth hP hm (x := x)
  refine ⟨fun i cl hi => ⟨?_, ((h.DI hP).tasks i cl hi).le hd, ?_⟩, fun g n g' hg ha => ?_⟩
  · have hp := ((h.BI hP).calls i cl hi).1
    have ch : ∀ {fs : List GFrame} {x y : Nat}, Chain c.a x fs y → fs.length ≤ m + 1 := fun h1 =>
      Nat.le_trans (h1.depth (h.BI hP).par) (hd _ h1.endp.2 h1.endp.1)
    generalize cl.pc = pc at hp
    cases pc with
    | gLoad => exact ch hp
    | gTry => exact ch hp
    | gPar => exact ch hp
    | gCas => exact ch hp
    | gRet => exact ch hp.choose_spec
    | _ => exact Nat.zero_le _
  · have hf := (h.DI hP).fg i cl hi
    generalize cl.pc = pc at hf
    cases pc with
    | imFg todo g r acc => exact (hf todo g r acc rfl).le hd
    | _ => exact Nat.zero_le _
  · have := (h.IA' hP).gf.gf.gof g hg
    exact Nat.le_trans (ha.depth (h.BI hP).par (h.IA' hP).gf.gf) (hd _ this.1 this.2)

/-- C70: So on a machine where lengths have 64 bits, 65 or 66 invocations are enough. -/
theorem C70_usize (hP : PTame P) (h : Conf.PReach P zst c) (hm : ∀ b, b < c.a.b.sk.nbuf → c.a.b.sk.blen b < 2 ^ 64) :
    (∀ (i : Nat) cl, c.calls[i]? = some cl → cl.pc.callers ≤ 65 ∧ cl.destructors ≤ 66 ∧ cl.pc.unwrapped ≤ 66) ∧
    ∀ g n g', g < c.a.ng → Above c.a g n g' → n ≤ 65 := C70_stack hP h (m := 64) fun b hb => Nat.le_of_lt (hm b hb)

/-! ## Programs that meet the hypotheses -/

namespace Arc

/-- `let a = ArcSlice::new(vec![1, 2]);` `l` and `r` are its halves, and then the left halves of these are cloned twice, and dropped in between. -/
def allParts : List (PAct Nat) :=
  [.act (.op (.new [1, 2])), .act (.run 0 8), .act (.op (.cloneSide .L 0)), .act (.run 1 30), .act (.op (.cloneSide .R 0)), .act (.run 2 30),
    .act (.op (.cloneSide .L 1)), .act (.run 3 30), .act (.op (.drop 3)), .act (.run 4 30), .act (.op (.cloneSide .L 1)), .act (.run 5 30),
    .act (.op (.cloneSide .L 2)), .act (.run 6 30), .act (.op (.cloneSide .R 1)), .act (.run 7 30)]

theorem allParts_reach : Conf.PReach (fun c op => c.strict op = true) false (pafter allParts) := pexec_reach (as := allParts) .init rfl

/-- The bound is attained. -/
example : ((pafter allParts).blocks 0).length = 5 ∧ ((pafter allParts).guards 0).length = 5 ∧ most ((pafter allParts).a.b.sk.fams 0).rng.len = 5 := by
  decide +kernel

/-- `drop` of a slice of four items, of which only the left half of the left half was ever cloned: three destructors, one inside the other. -/
def deepDrop : List (PAct Nat) :=
  [.act (.op (.new [1, 2, 3, 4])), .act (.run 0 8), .act (.op (.cloneSide .L 0)), .act (.run 1 30), .act (.op (.cloneSide .L 1)), .act (.run 2 30),
    .act (.op (.drop 2)), .act (.run 3 30), .act (.op (.drop 1)), .act (.run 4 30), .act (.op (.drop 0)), .act (.run 5 3)]

theorem deepDrop_reach : Conf.PReach (fun c op => c.strict op = true) false (pafter deepDrop) := pexec_reach (as := deepDrop) .init rfl

example : ((pafter deepDrop).calls.map Call.destructors) = [0, 0, 0, 0, 0, 3] ∧ (∀ b, b < (pafter deepDrop).a.b.sk.nbuf → (pafter deepDrop).a.b.sk.blen b ≤ 2 ^ 2) := by
  decide +kernel

/-- `into_mut` instead of the last `drop`: two invocations of `forget_items` wait for the third one. -/
def deepForget : List (PAct Nat) :=
  [.act (.op (.new [1, 2, 3, 4])), .act (.run 0 8), .act (.op (.cloneSide .L 0)), .act (.run 1 30), .act (.op (.cloneSide .L 1)), .act (.run 2 30),
    .act (.op (.drop 2)), .act (.run 3 30), .act (.op (.drop 1)), .act (.run 4 30), .act (.op (.intoMut 0)), .act (.run 5 5)]

theorem deepForget_reach : Conf.PReach (fun c op => c.strict op = true) false (pafter deepForget) := pexec_reach (as := deepForget) .init rfl

example : ((pafter deepForget).calls.map fun cl => cl.pc.unwrapped) = [0, 0, 0, 0, 0, 2] := by decide +kernel

/-- While a left half is cloned for the first time, `guard` asks for the guard of the whole. -/
def deepGuard : List (PAct Nat) :=
  [.act (.op (.new [1, 2, 3, 4])), .act (.run 0 8), .act (.op (.cloneSide .L 0)), .act (.run 1 7)]

theorem deepGuard_reach : Conf.PReach (fun c op => c.strict op = true) false (pafter deepGuard) := pexec_reach (as := deepGuard) .init rfl

example : ((pafter deepGuard).calls.map fun cl => cl.pc.callers) = [0, 1] := by decide +kernel

/-- The guard of a part of a part has two ancestors. -/
example : Above (pafter allParts).a 4 2 0 := .up (v := ⟨some 1, false, false⟩) rfl rfl (.up (v := ⟨some 0, false, false⟩) rfl rfl (.self 0))

end Arc
end Verif

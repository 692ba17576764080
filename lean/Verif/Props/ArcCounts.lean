import Verif.Arc.Proofs.Counts
import Verif.Props.ArcBounds
import Verif.Props.ArcWeak
/-!
# C76: reference counts stay small

At any time, whatever the threads do, no reference count exceeds the number of handles, of calls under way and of pending drops by more than a constant; the references
to an array are in addition one for each subslice in memory. So none overflows, unless about `usize::MAX` handles are made and leaked.
-/

namespace Verif
open Verif.Arc
open Rc (UB Lab)
variable {α : Type} {P : Rules α} {zst : Bool} {c : Conf α}

/-- C76: the `Arc`s of an `ArcSliceData`. -/
theorem C76_data (hP : PTame P) (h : Conf.PReach P zst c) {x : Nat} (hk : c.a.b.sk.kind x = .data) :
    c.a.b.strong x ≤ c.strongs + c.active + c.pending + 1 := by
  have B := h.BI hP
  have S := B.heap.good.shape
  rw [B.heap.good.ledger.s x]
  have h1 := S.data_refs hk
  have h2 : (aS c.T).count x ≤ c.strongs + c.active + c.pending := Conf.count_T (F := AT.S) (fun e he => by
      obtain ⟨hd, b⟩ := e
      cases hd with
      | strong d g => simpa [entT, AT.S] using count_ref x d
      | weak d g => cases g <;> simp [entT, AT.S]
      | uniq r =>
        have hr := (B.heap.regs r (List.mem_append_left _ (List.mem_flatMap.2 ⟨_, he, List.mem_singleton.2 rfl⟩))).1
        have : r.alloc ≠ some x := fun e => by have := S.kinds _ _ (hr x e); rw [hk] at this; cases this
        simp [entT, AT.S, Rc.count_opt, this]) fun cl hcl => call_S B x hcl
  omega

/-- C76: the `Arc`s of a `SliceAlloc`. -/
theorem C76_alloc (hP : PTame P) (h : Conf.PReach P zst c) {x : Nat} (hk : c.a.b.sk.kind x = .alloc) :
    c.a.b.strong x ≤ c.uniqs + c.active + c.pending + c.slices.length := by
  have B := h.BI hP
  have S := B.heap.good.shape
  rw [B.heap.good.ledger.s x]
  have h1 : _ ≤ c.slices.length := S.alloc_refs hk
  have h2 : (aS c.T).count x ≤ c.uniqs + c.active + c.pending := Conf.count_T (F := AT.S) (fun e he => by
      obtain ⟨hd, b⟩ := e
      cases hd with
      | strong d g =>
        have : d ≠ x := fun e => by
          obtain ⟨k, hk'⟩ := List.getElem?_of_mem he
          have : c.a.b.sk.kind d = .data := B.ents k ⟨.strong d g, b⟩ (by simp only [Conf.get, hk']; rfl)
          rw [e, hk] at this; cases this
        simp [entT, AT.S, this]
      | weak d g => cases g <;> simp [entT, AT.S]
      | uniq r => simpa [entT] using count_reg x r) fun cl hcl => call_S B x hcl
  omega

/-- C76: the `Arc`s and `Weak`s of a `DataGuard`. -/
theorem C76_guard (hP : PTame P) (h : Conf.PReach P zst c) (g : Nat) :
    c.a.gS g ≤ c.strongs + c.active + c.pending + 2 ∧ c.a.gW g ≤ c.weaks + c.active + 1 := by
  have G := (h.BI hP).gi
  constructor
  · rw [G.strong g]
    have h1 := h.prefs_le hP g
    have h2 : (aGd c.T).count g ≤ c.strongs + c.active + c.pending := Conf.count_T (F := AT.gds) (fun e _ => by
      obtain ⟨hd, b⟩ := e
      cases hd with
      | strong d j => simp only [entT, List.flatMap_cons, AT.gds, List.flatMap_nil, List.append_nil, List.nil_append, List.count_cons, List.count_nil, if_true]; split <;> omega
      | weak d j => cases j <;> simp [entT, AT.gds]
      | uniq r => simp [entT, AT.gds]) fun cl _ => call_G g cl
    omega
  · rw [G.weak g]
    have h2 : (aWk c.T).count g ≤ c.weaks + c.active + (c.calls.map fun _ => 0).sum := Conf.count_T (F := AT.wks) (fun e _ => by
      obtain ⟨hd, b⟩ := e
      cases hd with
      | strong d j => simp [entT, AT.wks]
      | weak d j => exact opt_wk j g
      | uniq r => simp [entT, AT.wks]) fun cl _ => call_W g cl
    rw [zeros] at h2
    split <;> omega

/-- C76: the `Weak`s of an `ArcSliceData`, with that which stands for all its `Arc`s. -/
theorem C76_weak (hP : PTame P) {w : WConf α} (h : WConf.Reach P zst w) (x : Nat) :
    w.wk x ≤ w.c.weaks + w.c.active + w.due.length + 3 := by
  have L := h.ledger hP
  rw [L.led x]
  have h1 := h.preach.heapW_le hP x
  have h2 := List.count_le_length (a := x) (l := w.due)
  have h3 : (w.c.hs.flatMap slotW).count x ≤ w.c.weaks := Rc.count_flat fun o _ => by
    match o with
    | none => simp [slotW]
    | some ⟨.strong d g, b⟩ => simp [slotW, entW]
    | some ⟨.weak d g, b⟩ => simp only [slotW, entW, Rc.count_opt]; split <;> simp
    | some ⟨.uniq r, b⟩ => simp [slotW, entW]
  have h4 : (w.c.calls.flatMap (callHold w.c.a)).count x ≤ w.c.active := Rc.count_flat fun cl _ => by
    simp only [callHold]
    generalize cl.pc = pc
    cases pc with
    | csCas d s r => simp only [pcHold, List.count_cons, List.count_nil, Pc.isDone]; split <;> simp
    | csLose d r => simp only [pcHold, Rc.count_opt, Pc.isDone]; split <;> simp
    | wd g => simp only [pcHold, Rc.count_opt, Pc.isDone]; split <;> simp
    | _ => exact Nat.zero_le _
  rw [Conf.led]; omega

end Verif

/-! ## Programs that meet the hypotheses -/

namespace Verif.Arc

/-- The left half of a slice of two items, cloned twice, with two `WeakSlice`s; an `ArcSliceMut` cut into two; and a third clone under way, which has cloned `data` but not
yet `data_guard`. -/
def manyArcs : List (PAct Nat) :=
  [.act (.op (.new [1, 2])), .act (.run 0 8), .act (.op (.cloneSide .L 0)), .act (.run 1 30), .act (.op (.clone 1)), .act (.run 2 8),
    .act (.op (.downgrade 1)), .act (.run 3 8), .act (.op (.clone 3)), .act (.run 4 8), .act (.op (.mutNew [3, 4, 5])), .act (.run 5 8),
    .act (.op (.splitOff .L 5)), .act (.run 6 8), .act (.op (.clone 1)), .act (.run 7 1)]

theorem manyArcs_reach : Conf.PReach (fun c op => c.strict op = true) false (pafter manyArcs) := pexec_reach (as := manyArcs) .init rfl

/-- Numbers of handles and calls. -/
example : (pafter manyArcs).strongs = 3 ∧ (pafter manyArcs).weaks = 2 ∧ (pafter manyArcs).uniqs = 2 ∧ (pafter manyArcs).active = 1 ∧ (pafter manyArcs).pending = 0 := by
  decide +kernel
/-- The `ArcSliceData` of the left half: two handles, the call under way, the slice it is a half of. -/
example : (pafter manyArcs).a.b.sk.kind 2 = .data ∧ (pafter manyArcs).a.b.strong 2 = 4 := by decide +kernel
/-- Its guard: two handles; two `WeakSlice`s and the box. -/
example : (pafter manyArcs).a.gS 1 = 2 ∧ (pafter manyArcs).a.gW 1 = 3 := by decide +kernel
/-- The guard of the whole: one handle, the guard of the left half. -/
example : (pafter manyArcs).a.gS 0 = 2 := by decide +kernel
/-- The arrays: two subslices; two `ArcSliceMut`s. -/
example : (pafter manyArcs).a.b.sk.kind 0 = .alloc ∧ (pafter manyArcs).a.b.strong 0 = 2 ∧ (pafter manyArcs).slices.length = 2 ∧
    (pafter manyArcs).a.b.sk.kind 3 = .alloc ∧ (pafter manyArcs).a.b.strong 3 = 2 := by decide +kernel
/-- Drops under way: in `deepDrop` each of the three destructors holds a reference to the array, which no handle does. -/
example : (pafter deepDrop).strongs = 0 ∧ (pafter deepDrop).uniqs = 0 ∧ (pafter deepDrop).slices.length = 0 ∧ (pafter deepDrop).pending = 4 ∧
    (pafter deepDrop).a.b.strong 0 = 3 := by decide +kernel
/-- `Weak`s of the whole: that for its `Arc`s is gone; the `WeakSlice` and the left half. -/
example : (wafter halfLeft).wk 1 = 2 ∧ (wafter halfLeft).c.weaks = 1 := by decide +kernel

end Verif.Arc

import Verif.Arc.Proofs.Values
import Verif.Arc.Proofs.Threads2
/-!
# The items that handles read: calls that have returned
-/

namespace Verif.Arc
open Verif.Spec (Side Slot Rng End)
open Verif.Rc
variable {α : Type} {P : Rules α} {zst : Bool} {c c0 c1 c2 c' : Conf α} {W : Nat → Nat → Prop} {M : Conf α → Nat → Prop}

/-- Items that others do not overwrite. -/
theorem PRun.kept (hP : PTame P) (hr : Conf.PReach P zst c) (run : PRun P W c c') {b j : Nat} {x : α} (h : W b j ∨ Kept x (c.a.b.slot b j)) :
    W b j ∨ Kept x (c'.a.b.slot b j) := by
  induction run with
  | refl => exact h
  | step r i e ih => exact (Evol.step (W := W) hP (r.reach hr) e).slot.kept ih
  | start r op hp e ih => exact (Evol.start (W := W) ((r.reach hr).BI hP).heap.base e).slot.kept ih
  | write r k en i y hk hw hW e ih => exact (Evol.write (W := W) ((r.reach hr).BI hP).heap.base hW e).slot.kept ih
  | panic r i e ih => exact (Evol.panic (W := W) hP (r.reach hr) e).slot.kept ih

theorem PRun.kept_live (hP : PTame P) (hr : Conf.PReach P zst c) (run : PRun P W c c') {b j : Nat} {x : α} (hW : ¬ W b j) (h : c.a.b.slot b j = .live x)
    {k : Nat} (hs : c'.Shows k b j) : c'.a.b.slot b j = .live x := by
  rcases run.kept hP hr (.inr (.inl h)) with h1 | h1
  · exact absurd h1 hW
  · obtain ⟨⟨y, hy⟩, _⟩ := C53_shown_is_there hP (run.reach hr) hs
    rw [hy] at h1 ⊢
    rcases h1 with h1 | h1 | h1 <;> cases h1; rfl

/-- Others neither take handle `k` nor write to what it shows. -/
theorem Apart.shown (hP : PStrict P) (hr : Conf.PReach P zst c) {k : Nat} {v : Seen} (hM : ∀ c, M c k) (hk : c.Sees k v) (ap : Apart P M c c') :
    PRun (Others P M) (fun b j => ¬ v.Has b j) c c' := by
  have hT := hP.tame
  induction ap with
  | refl => exact .refl
  | step r i e ih => exact ih.step i e
  | start r op hp hM' e ih => exact ih.start op ⟨hp, hM'⟩ e
  | @write c2 c3 r k' en j x hk' hw hM' e ih =>
    refine ih.write k' en j x hk' hw (fun b off len hrg hj hv => ?_) e
    have h1 := ih.sees hT hr hM hk
    have := exclusive ((ih.others.reach hr).IA hP) ⟨en, hk', hw⟩ ⟨en, off, len, hk', hrg, by omega, by omega⟩ (shows_of_sees h1 hv)
    exact hM' (this ▸ hM c2)
  | panic r i e ih => exact ih.panic i e

/-- The part of `xs`, the items from `o`, that can be seen. -/
def Seen.part (o : Nat) (xs : List α) : Seen → List α
  | .shared _ o' l | .uniq _ o' l => (xs.drop (o' - o)).take l
  | .weak _ => []

/-- Can only show some of these. -/
def Seen.In (b o l : Nat) (v : Seen) : Prop := ∃ o' l', (v = .shared b o' l' ∨ v = .uniq b o' l') ∧ o ≤ o' ∧ o' + l' ≤ o + l

theorem part_length {b o : Nat} {xs : List α} {v : Seen} (h : v.In b o xs.length) : v = .shared b (match v with | .shared _ o' _ | .uniq _ o' _ => o' | _ => 0) (v.part o xs).length ∨
    v = .uniq b (match v with | .shared _ o' _ | .uniq _ o' _ => o' | _ => 0) (v.part o xs).length := by
  obtain ⟨o', l', h1, h2, h3⟩ := h
  rcases h1 with rfl | rfl
  · left; simp only [Seen.part, List.length_take, List.length_drop, Seen.shared.injEq, true_and]; omega
  · right; simp only [Seen.part, List.length_take, List.length_drop, Seen.uniq.injEq, true_and]; omega

theorem reads_part {b o : Nat} {xs : List α} {v : Seen} (h : v.In b o xs.length) {k : Nat} (hk : c.Sees k v)
    (hx : ∀ i x, xs[i]? = some x → v.Has b (o + i) → c.a.b.slot b (o + i) = .live x) : c.Reads k (v.part o xs) := by
  have hp := part_length h
  obtain ⟨o', l', h1, h2, h3⟩ := h
  refine ⟨b, o', ?_, fun i x hi => ?_⟩
  · rcases h1 with rfl | rfl <;> rcases hp with hp | hp <;> first | cases hp; done | skip
    · simp only at hp; rw [hp] at hk; exact .inl hk
    · simp only at hp; rw [hp] at hk; exact .inr hk
  · have h4 : i < l' ∧ xs[o' - o + i]? = some x := by
      rcases h1 with rfl | rfl <;>
      · simp only [Seen.part] at hi
        have h5 : i < l' := by
          have := (List.getElem?_eq_some_iff.1 hi).1
          simp only [List.length_take] at this; omega
        rw [List.getElem?_take_of_lt h5, List.getElem?_drop] at hi
        exact ⟨h5, hi⟩
    have h5 : o + (o' - o + i) = o' + i := by omega
    have := hx _ x h4.2
    rw [h5] at this
    refine this ?_
    rcases h1 with rfl | rfl <;> exact ⟨rfl, by omega, by omega⟩

/-! ## The results in terms of items -/

theorem take_drop_all {xs : List α} {o : Nat} : (xs.drop (o - o)).take xs.length = xs := by simp

theorem part_left {xs : List α} {o : Nat} : (xs.drop (o - o)).take (xs.length / 2) = xs.take (xs.length / 2) := by simp

theorem part_right {xs : List α} {o n : Nat} : (xs.drop (o + n - o)).take (xs.length - n) = xs.drop n := by
  rw [Nat.add_sub_cancel_left, List.take_of_length_le (by simp)]

theorem part_front {xs : List α} {o n : Nat} : (xs.drop (o - o)).take n = xs.take n := by simp

theorem gives_of_returns {op : Op α} {k b o : Nat} {xs : List α} {s : Nat → Nat → Slot α} {r : Res α} {vs : List Seen} (hg : op.gives = true) (hon : op.on = some k)
    (hk : c.Sees k (.shared b o xs.length) ∨ c.Sees k (.uniq b o xs.length)) (hx : ∀ i x, xs[i]? = some x → c.a.b.slot b (o + i) = .live x)
    (hW : ∀ j, o ≤ j → j < o + xs.length → ¬ W b j)
    (h : Returns c W s op r vs) : Gives op xs r (vs.map (Seen.part o xs)) ∧ ∀ v ∈ vs, v.In b o xs.length := by
  have hS : ∀ {b' o' l}, c.Sees k (.shared b' o' l) → b' = b ∧ o' = o ∧ l = xs.length := by
    intro b' o' l h
    rcases hk with hk | hk <;> have := h.unique hk <;> cases this; exact ⟨rfl, rfl, rfl⟩
  have hU : ∀ {b' o' l}, c.Sees k (.uniq b' o' l) → b' = b ∧ o' = o ∧ l = xs.length := by
    intro b' o' l h
    rcases hk with hk | hk <;> have := h.unique hk <;> cases this; exact ⟨rfl, rfl, rfl⟩
  have inS : ∀ {o' l'}, o ≤ o' → o' + l' ≤ o + xs.length → (Seen.shared b o' l').In b o xs.length := fun h1 h2 => ⟨_, _, .inl rfl, h1, h2⟩
  have inU : ∀ {o' l'}, o ≤ o' → o' + l' ≤ o + xs.length → (Seen.uniq b o' l').In b o xs.length := fun h1 h2 => ⟨_, _, .inr rfl, h1, h2⟩
  cases op with
  | clone k' =>
    cases hon
    obtain ⟨rfl, v, h1, rfl⟩ := h
    rcases hk with hk | hk <;> cases h1.unique hk <;> simp only [List.map_cons, List.map_nil, Seen.part, take_drop_all, List.mem_singleton, forall_eq]
    · exact ⟨.clone, inS (by omega) (by omega)⟩
    · exact ⟨.clone, inU (by omega) (by omega)⟩
  | cloneSide sd k' =>
    cases hon
    obtain ⟨rfl, b', o', l, h1, rfl⟩ := h
    obtain ⟨rfl, rfl, rfl⟩ := hS h1
    cases sd <;> simp only [List.map_cons, List.map_nil, Seen.half, Rng.half, Rng.left, Rng.right, Seen.part, part_left, part_right, List.mem_singleton, forall_eq]
    · exact ⟨.cloneLeft, inS (by omega) (by omega)⟩
    · exact ⟨.cloneRight, inS (by omega) (by omega)⟩
  | getMut k' =>
    cases hon
    obtain ⟨h0, b', o', l, h1, rfl⟩ := h
    obtain ⟨rfl, rfl, rfl⟩ := hS h1
    simp only [List.map_cons, List.map_nil, Seen.part, take_drop_all, List.mem_singleton, forall_eq]
    refine ⟨?_, inS (by omega) (by omega)⟩
    rcases h0 with rfl | rfl
    · exact .getMut
    · exact .getMutNone
  | intoMut k' =>
    cases hon
    obtain ⟨b', o', l, h1, h2⟩ := h
    obtain ⟨rfl, rfl, rfl⟩ := hS h1
    rcases h2 with ⟨rfl, rfl⟩ | ⟨rfl, rfl⟩ <;> simp only [List.map_cons, List.map_nil, Seen.part, take_drop_all, List.mem_singleton, forall_eq]
    · exact ⟨.intoMut, inU (by omega) (by omega)⟩
    · exact ⟨.intoMutErr, inS (by omega) (by omega)⟩
  | intoImmut k' =>
    cases hon
    obtain ⟨rfl, b', o', l, h1, rfl⟩ := h
    obtain ⟨rfl, rfl, rfl⟩ := hU h1
    simp only [List.map_cons, List.map_nil, Seen.part, take_drop_all, List.mem_singleton, forall_eq]
    exact ⟨.intoImmut, inS (by omega) (by omega)⟩
  | splitOff sd k' =>
    cases hon
    obtain ⟨rfl, b', o', l, h1, rfl⟩ := h
    obtain ⟨rfl, rfl, rfl⟩ := hU h1
    cases sd <;> simp only [List.map_cons, List.map_nil, Seen.half, Side.flip, Rng.half, Rng.left, Rng.right, Seen.part, part_left, part_right, List.mem_cons,
      List.not_mem_nil, or_false, forall_eq_or_imp, forall_eq]
    · exact ⟨.splitOffLeft, inU (by omega) (by omega), inU (by omega) (by omega)⟩
    · exact ⟨.splitOffRight, inU (by omega) (by omega), inU (by omega) (by omega)⟩
  | next en k' =>
    cases hon
    cases en with
    | front =>
      obtain ⟨b', o', l, h1, h2⟩ := h
      obtain ⟨rfl, rfl, rfl⟩ := hU h1
      rcases h2 with ⟨h0, rfl, rfl⟩ | ⟨h0, x, rfl, h2, rfl⟩
      · obtain rfl := List.length_eq_zero_iff.1 h0
        exact ⟨by simpa [Seen.part] using .nextNone, by simpa using inU (by omega) (by omega)⟩
      · cases xs with
        | nil => simp at h0
        | cons y ys =>
          have h3 : c.a.b.slot b' o' = .live x := h2.resolve_left (hW _ (by omega) (by omega))
          have h4 := hx 0 y rfl
          rw [Nat.add_zero, h3] at h4; cases h4
          refine ⟨?_, by simpa using inU (by omega) (by simp only [List.length_cons]; omega)⟩
          have : (Seen.uniq b' (o' + 1) ((x :: ys).length - 1)).part o' (x :: ys) = ys := by simp [Seen.part]
          simp only [List.map_cons, List.map_nil, this]
          exact .nextFront
    | back =>
      obtain ⟨b', o', l, h1, h2⟩ := h
      obtain ⟨rfl, rfl, rfl⟩ := hU h1
      rcases h2 with ⟨h0, rfl, rfl⟩ | ⟨h0, x, rfl, h2, rfl⟩
      · obtain rfl := List.length_eq_zero_iff.1 h0
        exact ⟨by simpa [Seen.part] using .nextNone, by simpa using inU (by omega) (by omega)⟩
      · rcases List.eq_nil_or_concat xs with rfl | ⟨ys, y, hxs⟩
        · simp at h0
        · rw [List.concat_eq_append] at hxs
          subst hxs
          have hl : (ys ++ [y]).length = ys.length + 1 := by simp
          have h3 := h2.resolve_left (hW _ (by omega) (by omega))
          have h4 := hx ys.length y (by simp)
          rw [show o' + (ys ++ [y]).length - 1 = o' + ys.length by omega, h4] at h3
          cases h3
          refine ⟨?_, by simpa using inU (by omega) (by omega)⟩
          have : (Seen.uniq b' o' ((ys ++ [x]).length - 1)).part o' (ys ++ [x]) = ys := by simp [Seen.part]
          simp only [List.map_cons, List.map_nil, this]
          exact .nextBack
  | cut en n k' =>
    cases hon
    cases en with
    | front =>
      obtain ⟨b', o', l, h1, h2⟩ := h
      obtain ⟨rfl, rfl, rfl⟩ := hU h1
      rcases h2 with ⟨h0, rfl, rfl⟩ | ⟨h0, rfl, rfl⟩ <;>
        simp only [List.map_cons, List.map_nil, Seen.part, part_front, part_right, List.mem_cons, List.not_mem_nil, or_false, forall_eq_or_imp, forall_eq]
      · exact ⟨.cutFront h0, inU (by omega) (by omega), inU (by omega) (by omega)⟩
      · exact ⟨by have := Gives.cutPanic (e := .front) (k := k) h0; simpa using this, inU (by omega) (by omega)⟩
    | back =>
      obtain ⟨b', o', l, h1, h2⟩ := h
      obtain ⟨rfl, rfl, rfl⟩ := hU h1
      rcases h2 with ⟨h0, rfl, rfl⟩ | ⟨h0, rfl, rfl⟩ <;>
        simp only [List.map_cons, List.map_nil, Seen.part, part_front, part_right, List.mem_cons, List.not_mem_nil, or_false, forall_eq_or_imp, forall_eq]
      · exact ⟨.cutBack h0, inU (by omega) (by omega), inU (by omega) (by omega)⟩
      · exact ⟨by have := Gives.cutPanic (e := .back) (k := k) h0; simpa using this, inU (by omega) (by omega)⟩
  | _ => cases hg

/-- What `Returns` specifies includes all the handle showed. -/
theorem covers_returns {op : Op α} {k : Nat} {v : Seen} (hg : op.gives = true) (ht : op.takes = some k) (hk : c.Sees k v) :
    Covers op (fun b j => v.Has b j) (fun s => Returns c W s op) := by
  intro s r vs h
  refine .inr fun b j hj => ?_
  have hU : ∀ {v'}, c.Sees k v' → v' = v := fun h => h.unique hk
  cases op with
  | getMut k' =>
    cases ht
    obtain ⟨_, b', o', l, h1, rfl⟩ := h
    cases hU h1
    exact .inl ⟨_, List.mem_singleton_self _, hj⟩
  | intoMut k' =>
    cases ht
    obtain ⟨b', o', l, h1, h2⟩ := h
    cases hU h1
    rcases h2 with ⟨rfl, rfl⟩ | ⟨rfl, rfl⟩ <;> exact .inl ⟨_, List.mem_singleton_self _, hj⟩
  | intoImmut k' =>
    cases ht
    obtain ⟨rfl, b', o', l, h1, rfl⟩ := h
    cases hU h1
    exact .inl ⟨_, List.mem_singleton_self _, hj⟩
  | splitOff sd k' =>
    cases ht
    obtain ⟨rfl, b', o', l, h1, rfl⟩ := h
    cases hU h1
    obtain ⟨rfl, h2, h3⟩ := hj
    refine .inl ?_
    by_cases hh : j < o' + l / 2
    · refine ⟨.uniq b' o' (l / 2), ?_, rfl, h2, hh⟩
      cases sd <;> simp [Seen.half, Side.flip, Rng.half, Rng.left]
    · refine ⟨.uniq b' (o' + l / 2) (l - l / 2), ?_, rfl, by omega, by omega⟩
      cases sd <;> simp [Seen.half, Side.flip, Rng.half, Rng.right]
  | next en k' =>
    cases ht
    cases en with
    | front =>
      obtain ⟨b', o', l, h1, h2⟩ := h
      cases hU h1
      obtain ⟨rfl, h3, h4⟩ := hj
      rcases h2 with ⟨h0, rfl, rfl⟩ | ⟨h0, x, rfl, h2, rfl⟩
      · omega
      · by_cases hh : j = o'
        · exact .inr ⟨x, _, _, _, rfl, rfl, .inl ⟨rfl, by omega⟩⟩
        · exact .inl ⟨_, List.mem_singleton_self _, rfl, by omega, by omega⟩
    | back =>
      obtain ⟨b', o', l, h1, h2⟩ := h
      cases hU h1
      obtain ⟨rfl, h3, h4⟩ := hj
      rcases h2 with ⟨h0, rfl, rfl⟩ | ⟨h0, x, rfl, h2, rfl⟩
      · omega
      · by_cases hh : j = o' + l - 1
        · exact .inr ⟨x, _, _, _, rfl, rfl, .inr ⟨rfl, by omega⟩⟩
        · exact .inl ⟨_, List.mem_singleton_self _, rfl, by omega, by omega⟩
  | cut en n k' =>
    cases ht
    cases en <;>
    · obtain ⟨b', o', l, h1, h2⟩ := h
      cases hU h1
      rcases h2 with ⟨h0, rfl, rfl⟩ | ⟨h0, rfl, rfl⟩
      · obtain ⟨rfl, h3, h4⟩ := hj
        refine .inl ?_
        by_cases hh : j < o' + n
        · exact ⟨.uniq b' o' n, by simp, rfl, by omega, by omega⟩
        · exact ⟨.uniq b' (o' + n) (l - n), by simp, rfl, by omega, by omega⟩
      · exact .inl ⟨_, List.mem_singleton_self _, hj⟩
  | drop k' => cases hg
  | _ => cases ht

/-- A call that takes its handle starts with nothing borrowed. -/
theorem start_taking {op : Op α} {k : Nat} (hg : op.gives = true) (ht : op.takes = some k) (hs : c.start op = some c1) :
    ∃ cl, c1.calls[c.calls.length]? = some cl ∧ cl.pc.has = true ∧ cl.pc.isDone = false := by
  have tk : ∀ {k : Nat} {pc : Pc α}, (c.taking op k pc).calls[c.calls.length]? = some { op, pc, on := c.node k } := by
    intro k pc; simp [Conf.taking]
  cases SStep.of hs <;> first
    | (cases hg; done)
    | (cases ht; done)
    | exact ⟨_, tk, rfl, rfl⟩

/-! ## New slices -/

/-- What a call may return that is going to return `v`; if it runs destructors, it may panic instead. -/
def GotR (op : Op α) (v : Seen) (_ : Nat → Nat → Slot α) (r : Res α) (vs : List Seen) : Prop :=
  (r = .handle ∧ vs = [v]) ∨ (op.drops = true ∧ r = .panic ∧ vs = [])

/-- A call has got hold of items `xs`, and is going to return `v`, which shows them; or has just done so. -/
structure Gotten (i : Nat) (op : Op α) (xs : List α) (v : Seen) (b off : Nat) (c : Conf α) : Prop where
  all : v = .shared b off xs.length ∨ v = .uniq b off xs.length
  slot : ∀ j x, xs[j]? = some x → c.a.b.slot b (off + j) = .live x
  call : ∃ cl, c.calls[i]? = some cl ∧ cl.op = op ∧ cl.pc.has = true ∧
    ((cl.pc.isDone = false ∧ cl.out = [] ∧ ∀ W, Lds W (GotR op v) c.a cl.pc) ∨
      ∃ m e, cl.pc = .done .handle ∧ cl.tasks = [] ∧ cl.out = [m] ∧ c.get m = some e ∧ Good c.a e.h v)

theorem fresh_made (B' : Base c'.a.b.sk) {i : Nat} {op : Op α} {xs : List α} {pc : Pc α} (hpc : pc = .new xs ∨ pc = .mutNew xs)
    (hi : c.calls[i]? = some { op, pc }) (e : c.step i = .ok c') : ∃ v b, Gotten i op xs v b 0 c' := by
  have hlen := (List.getElem?_eq_some_iff.1 hi).1
  have sl : ∀ j x, xs[j]? = some x → (newBuf c.a.b xs).1.slot (newBuf c.a.b xs).2 j = .live x := fun j x hx => by
    simp only [newBuf, upd_same, hx]
  cases CStep.of e with
  | none h => rw [hi] at h; cases h
  | task cl tk ts a' new hi2 ht e2 => rw [hi] at hi2; cases hi2; cases ht
  | pc cl a' nx hi2 ht e2 =>
    rw [hi] at hi2; cases hi2
    have hi' := List.getElem?_set_self (a := { op, pc := nx.pc, tasks := nx.tasks, out := [] ++ List.range' c.hs.length nx.push.length }) hlen
    rcases hpc with rfl | rfl
    · cases PStep.of e2 with
      | new0 _ hl r a1 d hr er =>
        obtain ⟨h1, h2⟩ := root_at B' er
        subst hr
        refine ⟨.shared (newBuf c.a.b xs).2 0 0, (newBuf c.a.b xs).2, .inl (by rw [hl]), ?_, _, hi', rfl, rfl, ?_⟩
        · intro j x hx
          rw [h2, Nat.zero_add]; exact sl j x hx
        · exact .inl ⟨rfl, rfl, fun _ => ⟨_, _, _, h1, .inl ⟨rfl, rfl⟩⟩⟩
      | new1 _ hl r h1 al a1 d eh hr er =>
        obtain ⟨h3, h2⟩ := root_at B' er
        subst hr
        refine ⟨.shared (newBuf c.a.b xs).2 0 xs.length, (newBuf c.a.b xs).2, .inl rfl, ?_, _, hi', rfl, rfl, ?_⟩
        · intro j x hx
          rw [h2, Nat.zero_add]; cases eh; exact sl j x hx
        · exact .inl ⟨rfl, rfl, fun _ => ⟨_, _, _, h3, .inl ⟨rfl, rfl⟩⟩⟩
    · cases PStep.of e2 with
      | mutNew _ h1 r er =>
        have key : r.buf = (newBuf c.a.b xs).2 ∧ r.off = 0 ∧ r.len = xs.length ∧ h1.slot = (newBuf c.a.b xs).1.slot := by
          simp only [mutFromBox] at er
          split at er <;> cases er <;> exact ⟨rfl, rfl, rfl, rfl⟩
        obtain ⟨k1, k2, k3, k4⟩ := key
        refine ⟨.uniq (newBuf c.a.b xs).2 0 xs.length, (newBuf c.a.b xs).2, .inr rfl, ?_, _, hi', rfl, rfl, ?_⟩
        · intro j x hx
          show h1.slot _ (0 + j) = _
          rw [k4, Nat.zero_add]; exact sl j x hx
        · refine .inr ⟨c.hs.length, ⟨.uniq r, false⟩, rfl, rfl, rfl, ?_, k1, k2, k3⟩
          simp [Conf.get, Conf.after]

theorem Gotten.reads (hP : PStrict P) (hr : Conf.PReach P zst c0) {i : Nat} {op : Op α} {xs : List α} {v : Seen} {b off : Nat}
    (hM : ∀ c k, c.outOf i k → M c k) (h : Gotten i op xs v b off c0) (ap : Apart P M c0 c) :
    ∃ cl, c.calls[i]? = some cl ∧ cl.op = op ∧ (cl.pc.isDone = true → (∃ m, cl.pc = .done .handle ∧ cl.out = [m] ∧ c.Reads m xs) ∨
      (op.drops = true ∧ cl.pc = .done .panic ∧ cl.out = [])) := by
  have hT := hP.tame
  have B0 := hr.BI hT
  obtain ⟨hv, hx, cl0, h1, h2, h3, h6⟩ := h
  have w : ∀ W, Will W (GotR op v) 0 i op c0 := by
    intro W
    refine ⟨Nat.zero_le _, cl0, h1, h2, ?_⟩
    rcases h6 with h6 | ⟨m, e, k1, kt, k2, k3, k4⟩
    · exact .inl ⟨h6.1, h6.2.1, h6.2.2 W⟩
    · refine .inr ⟨.handle, [v], m, k1, .inl ⟨rfl, rfl⟩, Nat.zero_le _, k2, ⟨?_, fun j v' hv' e' he' => ?_⟩, fun h => .inr kt⟩
      · have := c0.get_lt k3; exact this
      · have hj := (List.getElem?_eq_some_iff.1 hv').1
        have hj : j = 0 := by simpa using hj
        subst hj
        cases hv'; rw [Nat.add_zero, k3] at he'; cases he'; exact k4
  have hR : ∀ W, Mono W (GotR op v) := fun _ _ _ _ _ _ h => h
  have hpn : op.drops = true → ∀ s, GotR op v s .panic [] := fun h _ => .inr ⟨h, rfl, rfl⟩
  have hc : Covers op (fun b j => v.Has b j) (GotR op v) := by
    rintro _ _ _ (⟨rfl, rfl⟩ | ⟨hd, rfl, rfl⟩)
    · exact .inr fun b j hj => .inl ⟨_, List.mem_singleton_self _, hj⟩
    · exact .inl ⟨hd, rfl⟩
  have out : ∀ k ∈ cl0.out, ∃ v, c0.Sees k v := by
    intro k hk
    rcases h6 with ⟨_, h6, _⟩ | ⟨m, e, k1, kt, k2, k3, k4⟩
    · rw [h6] at hk; cases hk
    · rw [k2] at hk
      obtain rfl := List.mem_singleton.1 hk
      exact sees_get B0 k3
  have S : (op.drops = true ∧ Gone i c) ∨ Sealed P M (fun b j => v.Has b j) i c0 c := by
    refine ap.sealed' hP hr (hR _) hc hpn (w _) hM h1 h3 (fun hdn => ?_) out
    rcases h6 with ⟨h6, _⟩ | ⟨m, e, k1, kt, k2, k3, k4⟩
    · rw [hdn] at h6; cases h6
    · obtain ⟨_, cl, q1, _, q2⟩ := w fun _ _ => True
      rw [h1] at q1; cases q1
      rcases q2 with ⟨q2, _⟩ | ⟨r, vs, m, q2, q3, q4, q5, q6, q7⟩
      · rw [hdn] at q2; cases q2
      · rw [k1] at q2; cases q2
        rcases q3 with ⟨_, rfl⟩ | ⟨_, q3, _⟩
        · exact ⟨_, m, q5, q6, fun b j hj => .inl ⟨_, List.mem_singleton_self _, hj⟩⟩
        · cases q3
  rcases S with ⟨hd, cl, g1, g2, g3⟩ | S
  · obtain ⟨_, cl', q1, q2, q3⟩ := (w _).run (hR _) hpn hT hr ap.others.others
    rw [g1] at q1; cases q1
    refine ⟨cl, g1, q2, fun _ => .inr ⟨hd, ?_, g3⟩⟩
    rcases q3 with ⟨q3, _⟩ | ⟨r, vs, m, q3, q4, _, q5, _⟩
    · rw [g2] at q3; cases q3
    · rcases q4 with ⟨_, rfl⟩ | ⟨_, rfl, _⟩
      · rw [g3] at q5; cases q5
      · exact q3
  have hrc := S.run.others.reach hr
  have B := hrc.BI hT
  obtain ⟨_, cl, q1, q2, q3⟩ := (w _).run (hR _) hpn hT hr S.run.others
  refine ⟨cl, q1, q2, fun hf => ?_⟩
  rcases q3 with ⟨q3, _⟩ | ⟨r, vs, m, q3, q4, _, q5, q6, _⟩
  · rw [hf] at q3; cases q3
  rcases q4 with ⟨rfl, rfl⟩ | ⟨hd, rfl, rfl⟩
  · refine .inl ⟨m, q3, q5, ?_⟩
    obtain ⟨v', e', he', hse⟩ := S.run.outs hT hr hM (fun k ⟨cl', l1, l2⟩ => by rw [h1] at l1; cases l1; exact out k l2)
      (List.getElem?_eq_some_iff.1 h1).1 m ⟨cl, q1, by rw [q5]; simp⟩
    have hs : c.Sees m v := ⟨e', he', seen_good B he' (q6.2 0 v rfl e' he')⟩
    have hpart : v.part off xs = xs := by rcases hv with rfl | rfl <;> simp [Seen.part]
    rw [← hpart]
    refine reads_part (b := b) (o := off) ?_ hs fun j x hj hh => ?_
    · rcases hv with rfl | rfl
      · exact ⟨_, _, .inl rfl, by omega, by omega⟩
      · exact ⟨_, _, .inr rfl, by omega, by omega⟩
    · exact S.run.others.kept_live hT hr (fun hn => hn hh) (hx j x hj) (shows_of_sees hs hh)
  · exact .inr ⟨hd, q3, q5⟩

theorem new_reads (hP : PStrict P) (hr : Conf.PReach P zst c1) {i : Nat} {op : Op α} {xs : List α} {pc : Pc α} (hpc : pc = .new xs ∨ pc = .mutNew xs)
    (hd : op.drops = false) (hi : c1.calls[i]? = some { op, pc }) (hM : ∀ c k, c.outOf i k → M c k) (ap : Apart P M c1 c) :
    ∃ cl, c.calls[i]? = some cl ∧ cl.op = op ∧ (cl.fin = true → ∃ m, cl.pc = .done .handle ∧ cl.out = [m] ∧ c.Reads m xs) := by
  have hT := hP.tame
  have key : Conf.PReach P zst c ∧ (c.calls[i]? = some { op, pc } ∨ ∃ c0 v b, Conf.PReach P zst c0 ∧ Gotten i op xs v b 0 c0 ∧ Apart P M c0 c) := by
    induction ap with
    | refl => exact ⟨hr, .inl hi⟩
    | @step c c' r j e ih =>
      have hr' := ih.1.run j e
      refine ⟨hr', ?_⟩
      rcases ih.2 with h | ⟨c0, v, b, h1, h2, h3⟩
      · by_cases hj : j = i
        · subst hj
          obtain ⟨v, b, h1⟩ := fresh_made (hr'.BI hT).heap.base hpc h e
          exact .inr ⟨_, v, b, hr', h1, .refl⟩
        · refine .inl ?_
          rw [← h]
          cases CStep.of e with
          | none _ => rfl
          | task => simp only [Conf.after]; rw [List.getElem?_set_ne hj]
          | pc => simp only [Conf.after]; rw [List.getElem?_set_ne hj]
      · exact .inr ⟨c0, v, b, h1, h2, h3.step j e⟩
    | @start c c' r op' hp hM' e ih =>
      refine ⟨ih.1.start op' hp e, ?_⟩
      rcases ih.2 with h | ⟨c0, v, b, h1, h2, h3⟩
      · exact .inl (start_calls_old e h)
      · exact .inr ⟨c0, v, b, h1, h2, h3.start op' hp hM' e⟩
    | @write c c' r k en j x hk hw hM' e ih =>
      refine ⟨ih.1.write k en j x hk hw e, ?_⟩
      rcases ih.2 with h | ⟨c0, v, b, h1, h2, h3⟩
      · refine .inl ?_
        rcases Conf.write_cases e with rfl | ⟨b, i, rfl⟩ <;> exact h
      · exact .inr ⟨c0, v, b, h1, h2, h3.write k en j x hk hw hM' e⟩
    | @panic c c' r j e ih =>
      refine ⟨ih.1.panic j e, ?_⟩
      rcases ih.2 with h | ⟨c0, v, b, h1, h2, h3⟩
      · refine .inl ?_
        obtain ⟨cl2, rg, ts, ts', us, s, p⟩ := Panicked.of (ih.1.BI hT).heap e
        have hj : j ≠ i := by
          rintro rfl
          have := p.call; rw [h] at this; cases this
          have := p.tasks; cases this
        rw [p.eq]; exact (List.getElem?_set_ne hj).trans h
      · exact .inr ⟨c0, v, b, h1, h2, h3.panic j e⟩
  rcases key.2 with h | ⟨c0, v, b, h1, h2, h3⟩
  · refine ⟨_, h, rfl, fun hf => ?_⟩
    rcases hpc with rfl | rfl <;> simp [Call.fin, Pc.isDone] at hf
  · obtain ⟨cl, q1, q2, q3⟩ := h2.reads hP h1 hM h3
    refine ⟨cl, q1, q2, fun hf => ?_⟩
    have : cl.pc.isDone = true := by simp only [Call.fin, Bool.and_eq_true] at hf; exact hf.2
    rcases q3 this with h | ⟨h, _⟩
    · exact h
    · rw [hd] at h; cases h

end Verif.Arc

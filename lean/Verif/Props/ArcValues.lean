import Verif.Arc.Proofs.Values3
/-!
# C59: what the items read through handles are, whatever other threads do

C55 says which places of which buffer the handles show that a call returns. Here are the items that are in these places, so it is a specification of
what a thread gets by `Deref`. It holds for every number of other threads and every schedule, even if destructors panic, in programs where
no `WeakSlice::upgrade` overlaps `into_mut` on a larger slice, or `get_mut` on the same or a larger one and the use of its result (`PStrict`).
-/

namespace Verif
open Arc
open Spec (Side Slot Rng End)
variable {α : Type} {P : Rules α} {zst : Bool} {c c1 c2 c' : Conf α}

/-- C59: an `ArcSlice` or `ArcSliceMut` always reads some items: none of them is gone. -/
theorem C59_reads (hP : PTame P) (h : Conf.PReach P zst c) {k b off len : Nat} (hk : c.Sees k (.shared b off len) ∨ c.Sees k (.uniq b off len)) :
    ∃ xs : List α, xs.length = len ∧ c.Reads k xs := by
  have hx : ∀ i, i < len → ∃ x, c.a.b.slot b (off + i) = .live x := by
    intro i hi
    have : c.Shows k b (off + i) := by
      rcases hk with hk | hk
      · exact shows_of_sees hk ⟨rfl, by omega, by omega⟩
      · exact shows_of_sees hk ⟨rfl, by omega, by omega⟩
    exact (C53_shown_is_there hP h this).1
  have := live_list hx
  obtain ⟨xs, rfl, h2⟩ := this
  exact ⟨xs, rfl, b, off, hk, h2⟩

/-- C59: a handle reads one thing only. -/
theorem C59_one {k : Nat} {xs ys : List α} (h1 : c.Reads k xs) (h2 : c.Reads k ys) : xs = ys := by
  obtain ⟨b, o, h1, h3⟩ := h1
  obtain ⟨b', o', h2, h4⟩ := h2
  have : b = b' ∧ o = o' ∧ xs.length = ys.length := by
    rcases h1 with h1 | h1 <;> rcases h2 with h2 | h2 <;> have := h1.unique h2 <;> simp at this <;> exact this
  obtain ⟨rfl, rfl, hl⟩ := this
  refine List.ext_getElem hl fun i k1 k2 => ?_
  have e1 := h3 i _ (List.getElem?_eq_getElem k1)
  rw [h4 i _ (List.getElem?_eq_getElem k2)] at e1
  exact (Slot.live.inj e1).symm

/-- C59: as long as the thread that has the handle neither gives it away nor writes through it, it reads the same items. -/
theorem C59_constant (hP : PStrict P) (h : Conf.PReach P zst c) {k : Nat} {xs : List α} (hk : c.Reads k xs) {M : Conf α → Nat → Prop} (hM : ∀ c, M c k)
    (ap : Apart P M c c') : c'.Reads k xs := by
  have hT := hP.tame
  obtain ⟨b, o, hk, hx⟩ := hk
  have key : ∀ {v : Seen}, (v = .shared b o xs.length ∨ v = .uniq b o xs.length) → c.Sees k v → c'.Reads k xs := by
    intro v hv hk
    have run := ap.shown hP h hM hk
    have hk' := run.sees hT h hM hk
    have hpart : v.part o xs = xs := by rcases hv with rfl | rfl <;> simp [Seen.part]
    rw [← hpart]
    refine reads_part (b := b) (o := o) ?_ hk' fun j x hj hh => ?_
    · rcases hv with rfl | rfl
      · exact ⟨_, _, .inl rfl, by omega, by omega⟩
      · exact ⟨_, _, .inr rfl, by omega, by omega⟩
    · exact run.others.kept_live hT h (fun hn => hn hh) (hx j x hj) (shows_of_sees hk' hh)
  rcases hk with hk | hk
  · exact key (.inl rfl) hk
  · exact key (.inr rfl) hk

/-- C59: a write through an `ArcSliceMut`, or the result of `get_mut`, changes the item written to, and nothing that other handles read. -/
theorem C59_write (hP : PStrict P) (h : Conf.PReach P zst c) {k j : Nat} {en : Ent} {x : α} (hk : c.get k = some en) (hw : Conf.writable en = true)
    (e : c.write en j x = .ok c') : (∀ xs, c.Reads k xs → c'.Reads k (xs.set j x)) ∧ ∀ k' ys, k' ≠ k → c.Reads k' ys → c'.Reads k' ys := by
  refine ⟨fun xs hr => ?_, fun k' ys hne hr => ?_⟩
  · obtain ⟨b, o, hv, hx⟩ := hr
    refine ⟨b, o, ?_, ?_⟩
    · rw [List.length_set]
      exact hv.imp (sees_write hP.tame h hk hw e) (sees_write hP.tame h hk hw e)
    · have hrg : Conf.range c.a en.h = .ok (some (b, o, xs.length)) := by
        have : ∀ v, c.Sees k v → c.seen en = some v := by rintro v ⟨e', h1, h2⟩; rw [hk] at h1; cases h1; exact h2
        obtain ⟨hh, m⟩ := en
        cases hh with
        | weak d g => cases hw
        | uniq r => rcases hv with hv | hv <;> have := this _ hv <;> simp [Conf.seen] at this; simp [Conf.range, this]
        | strong d g =>
          cases hd : c.a.b.getData d with
          | error u => rcases hv with hv | hv <;> have := this _ hv <;> simp [Conf.seen, hd] at this
          | ok w => rcases hv with hv | hv <;> have := this _ hv <;> simp [Conf.seen, hd] at this; simp [Conf.range, hd, bind, Except.bind, pure, Except.pure, this]
      intro i y hy
      have hi : i < xs.length := by have := (List.getElem?_eq_some_iff.1 hy).1; simpa using this
      rw [List.getElem?_set] at hy
      simp only [Conf.write, hrg, bind, Except.bind] at e
      split at e
      · next hj =>
        split at e
        · cases e
        · next h' e2 =>
          cases pure_ok e
          simp only [Rc.writeItem] at e2
          split at e2
          · cases e2
          · split at e2
            · cases e2
              simp only [Arena.withB, Rc.setSlot_slot]
              split at hy
              · subst i
                simp only [Option.some.injEq] at hy
                simp [hy]
              · rw [if_neg (by omega)]; exact hx i y hy
            · cases e2
      · next hj =>
        cases pure_ok e
        rw [if_neg (by omega)] at hy
        exact hx i y hy
  · exact C59_constant hP h hr (M := fun _ i => i = k') (fun _ => rfl) (.write .refl k en j x hk hw (fun h => hne h.symm) e)

/-- C59: a thread makes a call on a handle that reads `xs`; the call has number `c.calls.length` from then on. Others do what they like, but leave alone
the handle, if the call does not take it, and the handles the call has returned. Then once the call has returned, it has returned what `Gives`
specifies, which depends on `xs` only, and the handles it has returned read what `Gives` says. -/
theorem C59_values (hP : PStrict P) (h : Conf.PReach P zst c) {op : Op α} {k : Nat} {xs : List α} (hg : op.gives = true) (hon : op.on = some k)
    (hk : c.Reads k xs) (hp : P c op) (hs : c.start op = some c1) (ap : Apart P (Held [k] op c.calls.length) c1 c2) :
    ∃ cl, c2.calls[c.calls.length]? = some cl ∧ cl.op = op ∧ (cl.fin = true → ∃ r ys m, cl.pc = .done r ∧ Gives op xs r ys ∧
      cl.out = List.range' m ys.length ∧ ∀ i y, ys[i]? = some y → c2.Reads (m + i) y) := by
  have hT := hP.tame
  have hr : Conf.PReach P zst c1 := h.start op hp hs
  have hn : c.calls.length < c1.calls.length := by cases SStep.of hs <;> first | (cases hg; done) | simp [Conf.shared, Conf.taking]
  obtain ⟨b, o, hk, hx⟩ := hk
  obtain ⟨v, hv, hkv⟩ : ∃ v, (v = .shared b o xs.length ∨ v = .uniq b o xs.length) ∧ c.Sees k v := by
    rcases hk with hk | hk
    · exact ⟨_, .inl rfl, hk⟩
    · exact ⟨_, .inr rfl, hk⟩
  have hv' : ∀ j, o ≤ j → j < o + xs.length → v.Has b j := by
    intro j h1 h2; rcases hv with rfl | rfl <;> exact ⟨rfl, h1, h2⟩
  have hd : op.drops = false := by cases op <;> first | rfl | cases hg
  have ho : ∀ (c : Conf α) (k' : Nat) (n : Nat), c.outOf n k' → Held [k] op n c k' := fun _ _ _ h => .inr h
  have h0 : ∀ cl, c1.calls[c.calls.length]? = some cl → cl.out = [] := by
    intro cl hcl
    cases SStep.of hs <;> first
      | (cases hg; done)
      | (simp only [Conf.shared, Conf.taking, List.getElem?_concat_length] at hcl; cases hcl; rfl)
  have run : PRun (Others P (Held [k] op c.calls.length)) (fun b j => ¬ v.Has b j) c1 c2 := by
    by_cases ht : op.takes = some k
    · obtain ⟨cl0, h1, h2, h5⟩ := start_taking hg ht hs
      have w := returns_start (W := fun b j => ¬ v.Has b j) (h.BI hT) hs hn
      exact (ap.sealed hP hr (returns_mono op) (covers_returns hg ht hkv) hd w (fun c k => ho c k _) h1 h2
        (fun hd => by rw [h5] at hd; cases hd) (fun k' hk' => by rw [h0 cl0 h1] at hk'; cases hk')).run
    · exact ap.shown hP hr (k := k) (fun c => .inl ⟨by simp, ht⟩) (sees_start hT h hs ht hkv)
  have hrc := run.others.reach hr
  have B2 := hrc.BI hT
  obtain ⟨cl, h1, h2, h3⟩ := C55_returns hT h hp hs hn run.others
  refine ⟨cl, h1, h2, fun hf => ?_⟩
  obtain ⟨r, vs, m, k1, k2, k3, k4, k5, k6⟩ := h3 hf
  obtain ⟨g1, g2⟩ := gives_of_returns hg hon hk hx (fun j j1 j2 hn => hn (hv' j j1 j2)) k2
  refine ⟨r, _, m, k1, g1, by simpa using k3, fun i y hy => ?_⟩
  rw [List.getElem?_map] at hy
  cases hi : vs[i]? with
  | none => rw [hi] at hy; cases hy
  | some w =>
    rw [hi] at hy; cases hy
    have hl := (List.getElem?_eq_some_iff.1 hi).1
    obtain ⟨v', e', he', _⟩ := run.outs hT hr (fun c k => ho c k _) (fun k' ⟨cl', l1, l2⟩ => by rw [h0 cl' l1] at l2; cases l2) hn (m + i)
      ⟨cl, h1, by rw [k3]; exact List.mem_range'_1.2 ⟨by omega, by omega⟩⟩
    have hs2 : c2.Sees (m + i) w := ⟨e', he', k6 i w hi e' he'⟩
    refine reads_part (g2 w (List.mem_of_getElem? hi)) hs2 fun j x hj hh => ?_
    have hjl := (List.getElem?_eq_some_iff.1 hj).1
    refine run.others.kept_live hT hr (fun hn => hn (hv' _ (by omega) (by omega))) ?_ (shows_of_sees hs2 hh)
    rw [(Conf.start_T hs).2]
    exact hx j x hj

/-- C59: a new slice reads the items it was made of. -/
theorem C59_new (hP : PStrict P) (h : Conf.PReach P zst c) {op : Op α} {xs : List α} (ho : op = .new xs ∨ op = .mutNew xs) (hp : P c op)
    (hs : c.start op = some c1) (ap : Apart P (Held [] op c.calls.length) c1 c2) :
    ∃ cl, c2.calls[c.calls.length]? = some cl ∧ cl.op = op ∧ (cl.fin = true → ∃ m, cl.pc = .done .handle ∧ cl.out = [m] ∧ c2.Reads m xs) := by
  have hr : Conf.PReach P zst c1 := h.start op hp hs
  have pl : ∀ {pc : Pc α}, (c.plain op pc).calls[c.calls.length]? = some { op, pc } := by intro pc; simp [Conf.plain]
  have hM : ∀ (c' : Conf α) k, c'.outOf c.calls.length k → Held [] op c.calls.length c' k := fun _ _ h => .inr h
  rcases ho with rfl | rfl
  · cases SStep.of hs
    exact new_reads hP hr (.inl rfl) rfl pl hM ap
  · cases SStep.of hs
    exact new_reads hP hr (.inr rfl) rfl pl hM ap

/-- C59: a `WeakSlice` that is upgraded, if this succeeds, gives an `ArcSlice` that reads the items there were in the subslice when the call was made;
even if all handles to it are dropped meanwhile. `C59_would`: these are the items that the `ArcSlice`s read. -/
theorem C59_upgrade (hP : PStrict P) (h : Conf.PReach P zst c) {k d : Nat} (hk : c.Sees k (.weak (some d))) (hp : P c (.upgrade k))
    (hs : c.start (.upgrade k) = some c1) (ap : Apart P (Held [] (.upgrade k) c.calls.length) c1 c2) :
    ∃ cl, c2.calls[c.calls.length]? = some cl ∧ cl.op = .upgrade k ∧ (cl.fin = true →
      ((cl.pc = .done .none ∨ cl.pc = .done .panic) ∧ cl.out = []) ∨
      ∃ m xs, cl.pc = .done .handle ∧ cl.out = [m] ∧ c.Would d xs ∧ c2.Reads m xs) := by
  have hT := hP.tame
  have hr : Conf.PReach P zst c1 := h.start _ hp hs
  have hM : ∀ (c' : Conf α) k', c'.outOf c.calls.length k' → Held [] (Op.upgrade k : Op α) c.calls.length c' k' := fun _ _ h => .inr h
  cases SStep.of hs with
  | upgrade _ d' g b hg =>
    obtain ⟨e, h1, h2⟩ := hk
    rw [hg] at h1; cases h1
    cases h2
    have hi : (c.shared (.upgrade k) k (.up (some d))).calls[c.calls.length]? = some { op := .upgrade k, pc := .up (some d), borrow := some k, on := some d } := by
      simp [Conf.shared, Conf.node, hg]
    obtain ⟨_, cl, q1, _, q2⟩ := returns_start (W := fun _ _ => True) (h.BI hT) hs (by simp [Conf.shared])
    rw [hi] at q1; cases q1
    rcases q2 with ⟨_, _, q2⟩ | ⟨_, _, _, q2, _⟩
    · obtain ⟨l1, l2, _⟩ := q2.2 d rfl
      obtain ⟨cl, p1, p2, p3⟩ := up_reads hP hr rfl hi l1 l2 hM ap
      exact ⟨cl, p1, p2, p3⟩
    · cases q2

theorem C59_would {k d g : Nat} {b : Bool} {xs ys : List α} (hk : c.get k = some ⟨.strong d g, b⟩) (h1 : c.Reads k xs) (h2 : c.Would d ys) : xs = ys := by
  refine C59_one (c := c) (k := k) h1 ?_
  obtain ⟨b', off, h3, h4⟩ := h2
  exact ⟨b', off, .inl ⟨_, hk, h3⟩, h4⟩

/-! ## Programs that meet the hypotheses -/

namespace Arc

/-- Does the schedule leave the handles in `M` alone? -/
def leaves (M : Conf α → Nat → Bool) (c : Conf α) : PAct α → Bool
  | .act (.op o) => match o.takes with
    | some k => !M c k
    | none => true
  | .act (.wr k _ _) => !M c k
  | _ => true

def aexec (p : Conf α → Op α → Bool) (M : Conf α → Nat → Bool) (c : Conf α) : List (PAct α) → Option (Except Rc.UB (Conf α))
  | [] => some (.ok c)
  | a :: as => if leaves M c a then
      match pexec p c [a] with
      | some (.ok c') => aexec p M c' as
      | o => o
    else none

theorem Apart.trans {M : Conf α → Nat → Prop} (h1 : Apart P M c c1) (h2 : Apart P M c1 c2) : Apart P M c c2 := by
  induction h2 with
  | refl => exact h1
  | step r i e ih => exact ih.step i e
  | start r op hp hM e ih => exact ih.start op hp hM e
  | write r k en j x hk hw hM e ih => exact ih.write k en j x hk hw hM e
  | panic r i e ih => exact ih.panic i e

theorem aexec_apart {p : Conf α → Op α → Bool} {M : Conf α → Nat → Bool} : ∀ {as : List (PAct α)} {c c' : Conf α},
    aexec p M c as = some (.ok c') → Apart (fun c op => p c op = true) (fun c k => M c k = true) c c' := by
  have run : ∀ {n i : Nat} {c c' : Conf α}, steps c i n = .ok c' → Apart (fun c op => p c op = true) (fun c k => M c k = true) c c' := by
    intro n i
    induction n with
    | zero => intro c c' e; cases e; exact .refl
    | succ n ih =>
      intro c c' e
      obtain ⟨c1, e1, e2⟩ := Arc.bind_ok e
      exact Apart.trans (.step .refl i e1) (ih e2)
  intro as
  induction as with
  | nil => intro c c' e; cases e; exact .refl
  | cons a as ih =>
    intro c c' e
    simp only [aexec] at e
    split at e
    · next hl =>
      split at e
      · next c1 hc =>
        refine Apart.trans ?_ (ih e)
        cases a with
        | panic i =>
          simp only [pexec] at hc
          split at hc
          · next c2 h2 => cases hc; exact .panic .refl i h2
          · cases hc
        | act a =>
          simp only [pexec] at hc
          split at hc
          · next c2 h2 =>
            cases hc
            cases a with
            | op o =>
              simp only [execIf] at h2
              split at h2
              · next hp =>
                cases hs : c.start o with
                | none => rw [hs] at h2; cases h2
                | some c3 =>
                  rw [hs] at h2; cases h2
                  refine .start .refl o hp (fun k hk => ?_) hs
                  simp only [leaves, hk] at hl
                  simpa using hl
              · cases h2
            | run i n =>
              simp only [execIf] at h2
              cases hs : steps c i n with
              | error u => rw [hs] at h2; cases h2
              | ok c3 => rw [hs] at h2; cases h2; exact run hs
            | wr k j x =>
              simp only [execIf] at h2
              cases hk : c.get k with
              | none => rw [hk] at h2; cases h2
              | some en =>
                rw [hk] at h2; simp only at h2
                split at h2
                · rename_i hw
                  cases hs : c.write en j x with
                  | error u => rw [hs] at h2; cases h2
                  | ok c3 =>
                    rw [hs] at h2; cases h2
                    refine .write .refl k en j x hk hw ?_ hs
                    simp only [leaves] at hl
                    simpa using hl
                · cases h2
          · next hh => exact absurd hc (hh _)
      · next hh => exact absurd e (hh _)
    · cases e

def heldB (mine : List Nat) (op : Op α) (i : Nat) (c : Conf α) (k : Nat) : Bool :=
  (mine.contains k && op.takes != some k) || match c.calls[i]? with
    | some cl => cl.out.contains k
    | none => false

theorem aexec_held {p : Conf α → Op α → Bool} {mine : List Nat} {op : Op α} {i : Nat} {as : List (PAct α)}
    (e : aexec p (heldB mine op i) c as = some (.ok c')) : Apart (fun c op => p c op = true) (Held mine op i) c c' := by
  have : (fun c k => heldB mine op i c k = true) = (Held mine op i : Conf α → Nat → Prop) := by
    funext c k
    simp only [heldB, Held, Bool.or_eq_true, Bool.and_eq_true, List.contains_iff_mem, bne_iff_ne, ne_eq]
    cases c.calls[i]? <;> simp
  rw [← this]
  exact aexec_apart e

/-- What the handle reads, by evaluation. -/
def readsB (c : Conf α) (k : Nat) : Option (List α) :=
  match (c.get k).bind c.seen with
  | some (.shared b o l) | some (.uniq b o l) => (List.range l).mapM fun i => match c.a.b.slot b (o + i) with
    | .live x => some x
    | _ => none
  | _ => none

theorem mapM_some {β : Type} {f : β → Option α} : ∀ {l : List β} {xs : List α}, l.mapM f = some xs → xs.length = l.length ∧
    ∀ (i : Nat) b x, l[i]? = some b → xs[i]? = some x → f b = some x := by
  intro l
  induction l with
  | nil => intro xs h; simp at h; subst h; exact ⟨rfl, fun i b x h => by simp at h⟩
  | cons b l ih =>
    intro xs h
    rw [List.mapM_cons] at h
    cases hb : f b with
    | none => rw [hb] at h; cases h
    | some y =>
      cases hl : l.mapM f with
      | none => rw [hb, hl] at h; cases h
      | some ys =>
        rw [hb, hl] at h; cases h
        obtain ⟨h1, h2⟩ := ih hl
        refine ⟨by simp [h1], fun i b' x k1 k2 => ?_⟩
        cases i with
        | zero => cases k1; cases k2; exact hb
        | succ i => exact h2 i b' x k1 k2

theorem readsB_reads {k : Nat} {xs : List α} (h : readsB c k = some xs) : c.Reads k xs := by
  have key : ∀ b o l, ((List.range l).mapM fun i => match c.a.b.slot b (o + i) with
      | .live x => some x
      | _ => none) = some xs → xs.length = l ∧ ∀ i x, xs[i]? = some x → c.a.b.slot b (o + i) = .live x := by
    intro b o l h
    obtain ⟨h1, h2⟩ := mapM_some h
    rw [List.length_range] at h1
    refine ⟨h1, fun i x hx => ?_⟩
    have hi := (List.getElem?_eq_some_iff.1 hx).1
    have := h2 i i x (by rw [List.getElem?_range (by omega)]) hx
    split at this
    · next y hy => cases this; exact hy
    · cases this
  simp only [readsB] at h
  split at h
  · next b o l hs =>
    obtain ⟨e, h1, h2⟩ := Option.bind_eq_some_iff.1 hs
    obtain ⟨rfl, h3⟩ := key _ _ _ h
    exact ⟨b, o, .inl ⟨e, h1, h2⟩, h3⟩
  · next b o l hs =>
    obtain ⟨e, h1, h2⟩ := Option.bind_eq_some_iff.1 hs
    obtain ⟨rfl, h3⟩ := key _ _ _ h
    exact ⟨b, o, .inr ⟨e, h1, h2⟩, h3⟩
  · cases h

/-- Two halves of five items, and a `WeakSlice` of the left one. -/
def apartPrelude : List (PAct Nat) :=
  [.act (.op (.new [1, 2, 3, 4, 5])), .act (.run 0 8), .act (.op (.cloneSide .L 0)), .act (.run 1 30), .act (.op (.cloneSide .R 0)), .act (.run 2 30),
    .act (.op (.downgrade 1)), .act (.run 3 30), .act (.op (.drop 0)), .act (.run 4 30)]

/-- While one thread makes call 5, `into_mut` of the right half, another one calls `into_mut` of the left half, writes to it, splits it, and writes again. -/
def apartMut : List (PAct Nat) :=
  [.act (.run 5 2), .act (.op (.intoMut 1)), .act (.run 5 1), .act (.run 6 30), .act (.wr 4 0 7), .act (.run 5 30), .act (.op (.splitOff .L 4)),
    .act (.run 7 30), .act (.wr 6 0 8)]

/-- While one thread makes call 5, `upgrade` of the `WeakSlice`, another one drops the only `ArcSlice` of the left half. -/
def apartUp : List (PAct Nat) :=
  [.act (.run 5 1), .act (.op (.drop 1)), .act (.run 6 30), .act (.op (.cloneSide .L 2)), .act (.run 7 3), .act (.run 5 30), .act (.run 7 30)]

def called (op : Op Nat) : Conf Nat := (Conf.start (pafter apartPrelude) op).getD (Conf.init false)

def apartAfter (mine : List Nat) (op : Op Nat) (as : List (PAct Nat)) : Conf Nat :=
  match aexec (fun c op => c.strict op) (heldB mine op 5) (called op) as with
  | some (.ok c) => c
  | _ => Conf.init false

theorem apartAfter_apart {mine : List Nat} {op : Op Nat} {as : List (PAct Nat)}
    (h : wentWell (aexec (fun c op => c.strict op) (heldB mine op 5) (called op) as) = true) :
    Apart (fun c op => c.strict op = true) (Held mine op 5) (called op) (apartAfter mine op as) := by
  unfold apartAfter
  split
  · next e => exact aexec_held e
  · next hne =>
    exfalso
    revert h
    cases e : aexec (fun c op => c.strict op) (heldB mine op 5) (called op) as with
    | none => exact fun h => nomatch h
    | some x => cases x with
      | error u => exact fun h => nomatch h
      | ok c => exact absurd e (hne c)

theorem apart_reach : Conf.PReach (fun c op => c.strict op = true) false (pafter apartPrelude) := pexec_reach (as := apartPrelude) .init rfl

end Arc

/-- C59_values: the hypotheses hold … -/
example : PStrict (fun (c : Conf Nat) op => c.strict op = true) ∧ (pafter apartPrelude).Reads 2 [3, 4, 5] ∧ (pafter apartPrelude).calls.length = 5 ∧
    (pafter apartPrelude).strict (.intoMut 2) = true ∧ (pafter apartPrelude).start (.intoMut 2) = some (called (.intoMut 2)) ∧
    Apart (fun c op => c.strict op = true) (Held [2] (.intoMut 2) 5) (called (.intoMut 2)) (apartAfter [2] (.intoMut 2) apartMut) :=
  ⟨pstrict_strict, readsB_reads (by decide +kernel), by decide +kernel, by decide +kernel, rfl, apartAfter_apart (by decide +kernel)⟩

/-- … and the call has returned an `ArcSliceMut` of the right half, handle 5, while the other thread has changed the left one. -/
example : ((apartAfter [2] (.intoMut 2) apartMut).calls[5]?.map fun cl => (cl.fin, cl.out)) = some (true, [5]) ∧
    (apartAfter [2] (.intoMut 2) apartMut).Reads 5 [3, 4, 5] ∧ (apartAfter [2] (.intoMut 2) apartMut).Reads 6 [8] ∧
    (apartAfter [2] (.intoMut 2) apartMut).Reads 7 [2] :=
  ⟨by decide +kernel, readsB_reads (by decide +kernel), readsB_reads (by decide +kernel), readsB_reads (by decide +kernel)⟩

/-- C59_upgrade: the hypotheses hold … -/
example : (pafter apartPrelude).Sees 3 (.weak (some 2)) ∧ (pafter apartPrelude).strict (.upgrade 3) = true ∧
    (pafter apartPrelude).start (.upgrade 3) = some (called (.upgrade 3)) ∧
    Apart (fun c op => c.strict op = true) (Held [] (.upgrade 3) 5) (called (.upgrade 3)) (apartAfter [] (.upgrade 3) apartUp) :=
  ⟨⟨_, rfl, rfl⟩, by decide +kernel, rfl, apartAfter_apart (by decide +kernel)⟩

/-- … and the call has returned an `ArcSlice` that reads what the one read that is gone by now. -/
example : (pafter apartPrelude).Reads 1 [1, 2] ∧ ((apartAfter [] (.upgrade 3) apartUp).calls[5]?.map fun cl => (cl.fin, cl.out)) = some (true, [4]) ∧
    ((apartAfter [] (.upgrade 3) apartUp).get 1).isNone = true ∧ (apartAfter [] (.upgrade 3) apartUp).Reads 4 [1, 2] :=
  ⟨readsB_reads (by decide +kernel), by decide +kernel, by decide +kernel, readsB_reads (by decide +kernel)⟩

end Verif

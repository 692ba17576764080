import Verif.Arc.Proofs.Rest
import Verif.Props.ArcSeq
import Verif.Props.ArcFails
import Verif.Props.ArcExclusive
import Verif.Props.ArcRefuse
/-!
# C58: after any concurrent use, the library is in a state of the specification

Threads have used the `Arc` types at the same time, in whatever way, and all their calls have
returned. Then there is a state of the specification of single-threaded use (`Spec/World`,
`Spec/ArcWorld`) which describes the handles and items there are; and whatever one thread does
with these handles from now on has the results the specification says. So nothing of how
the calls were interleaved is left behind.
-/

namespace Verif
open Arc
open Spec (Obs Slot Side End Hand World Rng)
variable {α : Type} {umax : Nat} {zst : Bool} {P : Rules α} {c : Conf α}

/-! ## Specification -/

/-- The state `w` of the specification describes the items and handles in `c`: the handle
called `k` is at position `k`. -/
structure Describes (c : Conf α) (w : World α) : Prop where
  /-- items are there, handed out, dropped -/
  items : ∀ b i, w.items b i = c.a.b.slot b i
  /-- memory is allocated or not -/
  mem : ∀ b, w.mem b = c.a.b.sk.mem b
  /-- there are the same handles -/
  none : ∀ k, w.get k = .none ↔ c.get k = .none
  /-- an `ArcSlice` -/
  slice : ∀ k d g m, c.get k = some ⟨.strong d g, m⟩ → ∃ f p, w.get k = some (.shared f p)
  /-- a `WeakSlice` -/
  weak : ∀ k d g m, c.get k = some ⟨.weak (some d) g, m⟩ → ∃ f p, w.get k = some (.weak f p)
  /-- a `WeakSlice` that never referred to anything -/
  weakNone : ∀ k g m, c.get k = some ⟨.weak .none g, m⟩ → w.get k = some .weakNone
  /-- an `ArcSliceMut` -/
  uniq : ∀ k r m, c.get k = some ⟨.uniq r, m⟩ → w.get k = some (.uniq r.buf ⟨r.off, r.len⟩ r.alloc.isSome)
  /-- an `ArcSlice` shows the items the specification says -/
  shows : ∀ k d g m f p, c.get k = some ⟨.strong d g, m⟩ → w.get k = some (.shared f p) →
    Conf.range c.a (.strong d g) = .ok (some ((w.fam f).buf, (w.rangeOf f p).off, (w.rangeOf f p).len))
  /-- two `ArcSlice`s that are the same slice (share one header) are the same member of a family -/
  same : ∀ k k' d g g' m m', c.get k = some ⟨.strong d g, m⟩ → c.get k' = some ⟨.strong d g', m'⟩ → w.get k = w.get k'
  /-- a `WeakSlice` is one to the slice whose header it has -/
  target : ∀ k k' d g g' m m' f p, c.get k = some ⟨.strong d g, m⟩ → c.get k' = some ⟨.weak (some d) g', m'⟩ →
    w.get k = some (.shared f p) → w.get k' = some (.weak f p)

/-- One thread goes on with all the handles there are. -/
def goOn (c : Conf α) : Seq α := ⟨c, c.hs.mapIdx fun m o => o.map fun _ => (m, .plain)⟩

/-- No `&mut [T]` got by `get_mut` is in use. -/
def NoRefs (c : Conf α) : Prop := ∀ k e, c.get k = some e → e.mutb = false

/-- No box had more than `umax` items. -/
def Fits (umax : Nat) (c : Conf α) : Prop := ∀ b, c.a.b.sk.blen b ≤ umax

/-! ## Proofs -/

theorem describes_worldOf (hP : Tame P) (h : Conf.Reach P zst c) : Describes c (worldOf c) := by
  have get : ∀ k, (worldOf c).get k = (c.get k).map fun e => handOf c.a.b.sk e.h := by
    intro k; simp only [World.get, worldOf]; rw [join_map]; rfl
  have B := h.BI hP
  refine ⟨fun _ _ => rfl, fun _ => rfl, fun k => ?_, fun k d g m hk => ?_, fun k d g m hk => ?_, fun k g m hk => ?_, fun k r m hk => ?_,
    fun k d g m f p hk hw => ?_, fun k k' d g g' m m' hk hk' => ?_, fun k k' d g g' m m' f p hk hk' hw => ?_⟩
  · rw [get]; simp
  · rw [get, hk]; exact ⟨_, _, rfl⟩
  · rw [get, hk]; exact ⟨_, _, rfl⟩
  · rw [get, hk]; rfl
  · rw [get, hk]; rfl
  · rw [get, hk] at hw
    simp only [Option.map_some, handOf, Option.some.injEq, Hand.shared.injEq] at hw
    obtain ⟨rfl, rfl⟩ := hw
    obtain ⟨v, hd⟩ := data_of_strong B hk
    obtain ⟨a1, a2, _⟩ := B.heap.good.shape.dataFam d v hd
    have hf := B.heap.good.shape.famLt d (B.heap.good.ledger.lt hd) (by rw [B.heap.good.shape.kinds _ _ hd]; simp [Rc.Node.kind])
    have ef : (worldOf c).fam (c.a.b.sk.lab d).fam = c.a.b.sk.fams (c.a.b.sk.lab d).fam := by
      simp only [World.fam, worldOf, List.getD_eq_getElem?_getD]
      rw [List.getElem?_map, List.getElem?_range hf]; rfl
    simp only [World.rangeOf, ef, ← a1, ← a2, Conf.range, Rc.getData_ok hd]
    rfl
  · rw [get, get, hk, hk']; rfl
  · rw [get, hk] at hw
    rw [get, hk']
    simp only [Option.map_some, handOf, Option.some.injEq, Hand.shared.injEq] at hw
    obtain ⟨rfl, rfl⟩ := hw
    rfl

/-! ## C58 -/

/-- Whenever all calls have returned, there is a state of the specification that describes what
there is, and whatever one thread does from now on has the results and leaves the items and
memory the specification says. -/
theorem C58_at_rest (hP : Tame P) (h : Conf.Reach P zst c) (hq : c.Quiet) (hn : NoRefs c) (hu : Fits umax c) :
    ∃ w, Describes c w ∧ ∀ ops, ∃ s os w', (goOn c).Run umax ops os s ∧ w.ArcRun umax ops os w' ∧
      (∀ b i, s.c.a.b.slot b i = w'.items b i) ∧ ∀ b, s.c.a.b.sk.mem b = w'.mem b := by
  refine ⟨worldOf c, describes_worldOf hP h, fun ops => ?_⟩
  obtain ⟨os, s, v, h1, h2, w, φ, R, S⟩ := (Tied.atRest hP h hq hn hu).run ops
  exact ⟨s, os, v, h1, h2, fun b i => by rw [S.items, R.core.items], fun b => by rw [S.mem, R.core.mem]⟩

/-- The same, for a run that has happened: it is one of the specification. -/
theorem C58_only (hP : Tame P) (h : Conf.Reach P zst c) (hq : c.Quiet) (hn : NoRefs c) (hu : Fits umax c) :
    ∃ w, Describes c w ∧ ∀ {ops os s}, (goOn c).Run umax ops os s → ∃ w', w.ArcRun umax ops os w' ∧
      (∀ b i, s.c.a.b.slot b i = w'.items b i) ∧ ∀ b, s.c.a.b.sk.mem b = w'.mem b := by
  obtain ⟨w, hd, H⟩ := C58_at_rest hP h hq hn hu
  refine ⟨w, hd, fun {ops os s} r => ?_⟩
  obtain ⟨s', os', w', h1, h2, h3, h4⟩ := H ops
  obtain ⟨rfl, rfl⟩ := Run.det r h1
  exact ⟨w', h2, h3, h4⟩

/-! ## What this means for `into_mut` and `get_mut` -/

theorem goOn_at {k d g : Nat} {m : Bool} (hk : c.get k = some ⟨.strong d g, m⟩) : (goOn c).at' k = some (.slice k d g) := by
  have e : (goOn c).tab[k]?.join = some (k, .plain) := by
    simp only [goOn]; rw [tabOf_join]
    rw [show c.hs[k]?.join = some ⟨.strong d g, m⟩ from hk]; rfl
  simp only [Seq.at', e]
  rw [show (goOn c).c.get k = some ⟨.strong d g, m⟩ from hk]

/-- Members of a family, one of them cut from the other: if the smaller one has items, they
show some item both. -/
theorem shared_overlap {w : World α} {f : Nat} {p q : List Side} (h : World.above p q = true) (hl : 0 < (w.rangeOf f q).len) :
    (w.rangeOf f p).off ≤ (w.rangeOf f q).off ∧ (w.rangeOf f q).off < (w.rangeOf f p).off + (w.rangeOf f p).len := by
  obtain ⟨t, rfl⟩ := List.isSuffixOf_iff_suffix.1 h
  have := Rc.at_sub (r := (w.fam f).rng) p t
  simp only [World.rangeOf] at hl ⊢
  omega

theorem del_ne {w : World α} {k : Nat} {y : Hand} (h : (w.del k).hs[k]? = some (some y)) : False := by
  simp only [World.del, List.getElem?_set_self'] at h
  cases h2 : w.hs[k]? <;> rw [h2] at h <;> cases h

theorem no_conflict {w : World α} (D : Describes c w) {k d g : Nat} {m : Bool} {f : Nat} {p : List Side} (hk : c.get k = some ⟨.strong d g, m⟩)
    (hw : w.get k = some (.shared f p)) (hne : ∃ b i, c.Shows k b i)
    (ho : ∀ k' d' g' m', k' ≠ k → c.get k' = some ⟨.strong d' g', m'⟩ → (∃ b i, c.Shows k' b i) ∧ ∀ b i, c.Shows k b i → ¬ c.Shows k' b i) :
    w.otherHand k (World.sharedConflict f p) = false := by
  rw [Bool.eq_false_iff]
  intro hc
  obtain ⟨o, ho', h2⟩ := List.any_eq_true.1 hc
  cases o with
  | none => cases h2
  | some y =>
    obtain ⟨k', hk'⟩ := List.mem_iff_getElem?.1 ho'
    have hkk : k' ≠ k := by
      rintro rfl; exact del_ne hk'
    have hg : w.get k' = some y := by
      simp only [World.del, List.getElem?_set_ne (Ne.symm hkk)] at hk'
      simp only [World.get, hk', Option.join_some]
    cases y with
    | shared f' p' =>
      simp only [Option.any_some, World.sharedConflict, Bool.and_eq_true, beq_iff_eq, Bool.or_eq_true] at h2
      obtain ⟨rfl, h2⟩ := h2
      cases hc' : c.get k' with
      | none => rw [(D.none k').2 hc'] at hg; cases hg
      | some e =>
        obtain ⟨hd, m'⟩ := e
        cases hd with
        | strong d' g' =>
          obtain ⟨⟨b, i, e1, off, len, h3, h4, h5, h7⟩, h6⟩ := ho k' d' g' m' hkk hc'
          obtain ⟨b0, i0, e0, off0, len0, i3, i4, i5, i6⟩ := hne
          rw [hc'] at h3; cases h3
          rw [hk] at i3; cases i3
          have r1 := D.shows k d g m f' p hk hw
          have r2 := D.shows k' d' g' m' f' p' hc' hg
          rw [r2] at h4; cases h4
          rw [r1] at i4; cases i4
          rcases h2 with h2 | h2
          · have := shared_overlap (w := w) (f := f') h2 (by omega)
            exact h6 _ (w.rangeOf f' p').off ⟨_, _, _, hk, r1, this⟩ ⟨_, _, _, hc', r2, Nat.le_refl _, by omega⟩
          · have := shared_overlap (w := w) (f := f') h2 (by omega)
            exact h6 _ (w.rangeOf f' p).off ⟨_, _, _, hk, r1, Nat.le_refl _, by omega⟩ ⟨_, _, _, hc', r2, this⟩
        | weak d' g' =>
          cases d' with
          | none => rw [D.weakNone k' g' m' hc'] at hg; cases hg
          | some d' => obtain ⟨_, _, h⟩ := D.weak k' d' g' m' hc'; rw [h] at hg; cases hg
        | uniq r => rw [D.uniq k' r m' hc'] at hg; cases hg
    | _ => cases h2

theorem into_mut_rest (hP : Tame P) (h : Conf.Reach P zst c) (hq : c.Quiet) (hn : NoRefs c) {k d g : Nat}
    (hk : c.get k = some ⟨.strong d g, false⟩) :
    ∃ w f p m c', Describes c w ∧ w.get k = some (.shared f p) ∧
      ((w.otherHand k (World.sharedConflict f p) = true ∧ Ret c (.intoMut k) .err [m] c') ∨
        (w.otherHand k (World.sharedConflict f p) = false ∧ Ret c (.intoMut k) .handle [m] c')) := by
  obtain ⟨u, hu⟩ := h.bounded hP
  obtain ⟨w, D, H⟩ := C58_at_rest hP h hq hn hu
  obtain ⟨f, p, hw⟩ := D.slice k d g false hk
  obtain ⟨s, os, w', h1, h2, _, _⟩ := H [.intoMut k]
  have ha := goOn_at hk
  cases h1 with
  | cons h1 h1' =>
    cases h1'
    cases h2 with
    | cons h2 h2' =>
      cases h2'
      cases h2 with
      | same hm =>
        simp only [World.call, World.act, hw] at h1
        cases hc : w.otherHand k (World.sharedConflict f p) with
        | true =>
          rw [hc] at h1
          cases h1 with
          | intoMutNo hk' h3 => rw [ha] at hk'; cases hk'; exact ⟨w, f, p, _, _, D, hw, .inl ⟨hc, h3⟩⟩
        | false =>
          rw [hc] at h1
          cases h1 with
          | intoMut hk' h3 => rw [ha] at hk'; cases hk'; exact ⟨w, f, p, _, _, D, hw, .inr ⟨hc, h3⟩⟩

/-- `into_mut` is not refused without reason: when all calls have returned, and all other
`ArcSlice`s have items and share none with this non-empty one, it succeeds. (Empty subslices
do get in the way, as for `RcSlice`.) -/
theorem C58_into_mut_granted (hP : Tame P) (h : Conf.Reach P zst c) (hq : c.Quiet) (hn : NoRefs c) {k d g : Nat}
    (hk : c.get k = some ⟨.strong d g, false⟩) (hne : ∃ b i, c.Shows k b i)
    (ho : ∀ k' d' g' m', k' ≠ k → c.get k' = some ⟨.strong d' g', m'⟩ → (∃ b i, c.Shows k' b i) ∧ ∀ b i, c.Shows k b i → ¬ c.Shows k' b i) :
    ∃ m c', Ret c (.intoMut k) .handle [m] c' := by
  obtain ⟨w, f, p, m, c', D, hw, ⟨h1, h2⟩ | ⟨h1, h2⟩⟩ := into_mut_rest hP h hq hn hk
  · rw [no_conflict D hk hw hne ho] at h1; cases h1
  · exact ⟨m, c', h2⟩

theorem other_weak {w : World α} (D : Describes c w) {k f : Nat} {p : List Side} (hw : w.otherHand k (World.weakHere f p) = true) :
    ∃ k' d g m, c.get k' = some ⟨.weak (some d) g, m⟩ := by
  obtain ⟨o, ho', h2⟩ := List.any_eq_true.1 hw
  cases o with
  | none => cases h2
  | some y =>
    obtain ⟨k', hk'⟩ := List.mem_iff_getElem?.1 ho'
    have hkk : k' ≠ k := by
      rintro rfl; exact del_ne hk'
    have hg : w.get k' = some y := by
      simp only [World.del, List.getElem?_set_ne (Ne.symm hkk)] at hk'
      simp only [World.get, hk', Option.join_some]
    cases y with
    | weak f' p' =>
      cases hc' : c.get k' with
      | none => rw [(D.none k').2 hc'] at hg; cases hg
      | some e =>
        obtain ⟨hd, m'⟩ := e
        cases hd with
        | strong d' g' => obtain ⟨_, _, h⟩ := D.slice k' d' g' m' hc'; rw [h] at hg; cases hg
        | weak d' g' =>
          cases d' with
          | none => rw [D.weakNone k' g' m' hc'] at hg; cases hg
          | some d' => exact ⟨k', d', g', m', hc'⟩
        | uniq r => rw [D.uniq k' r m' hc'] at hg; cases hg
    | _ => cases h2

/-- Nor is `get_mut`, if there are no `WeakSlice`s. -/
theorem C58_get_mut_granted (hP : Tame P) (h : Conf.Reach P zst c) (hq : c.Quiet) (hn : NoRefs c) {k d g : Nat}
    (hk : c.get k = some ⟨.strong d g, false⟩) (hne : ∃ b i, c.Shows k b i)
    (ho : ∀ k' d' g' m', k' ≠ k → c.get k' = some ⟨.strong d' g', m'⟩ → (∃ b i, c.Shows k' b i) ∧ ∀ b i, c.Shows k b i → ¬ c.Shows k' b i)
    (hweak : ∀ k' d' g' m', c.get k' ≠ some ⟨.weak (some d') g', m'⟩) :
    ∃ m c', Ret c (.getMut k) .handle [m] c' := by
  obtain ⟨u, hu⟩ := h.bounded hP
  obtain ⟨w, D, H⟩ := C58_at_rest hP h hq hn hu
  obtain ⟨f, p, hw⟩ := D.slice k d g false hk
  obtain ⟨b, i, hb⟩ := hne
  obtain ⟨x, hx⟩ := (C37_alive_iff_shown hP h hq b i).2 ⟨k, hb⟩
  obtain ⟨s, os, w', h1, h2, _, _⟩ := H [.getMut k 0 x]
  have ha := goOn_at hk
  have hc := no_conflict D hk hw ⟨b, i, hb⟩ ho
  cases h1 with
  | cons h1 h1' =>
    cases h1'
    cases h2 with
    | cons h2 h2' =>
      cases h2'
      cases h2 with
      | same hm =>
        have hwc : w.otherHand k (World.weakConflict f p) = false := by
          rw [Bool.eq_false_iff]; intro e
          rw [hm f p hw e] at hc; cases hc
        simp only [World.call, World.act, hw, hc, hwc, Bool.or_self, Bool.false_eq_true, if_false] at h1
        have key : ∀ {s'}, Seq.Does u (goOn c) (.getMut k 0 x) Obs.done s' → ∃ m c', Ret c (.getMut k) .handle [m] c' := by
          intro s' h1
          cases h1 with
          | getMut hk' h3 => rw [ha] at hk'; cases hk'; exact ⟨_, _, h3⟩
        split at h1 <;> exact key h1
      | granted hk2 hs =>
        cases h1 with
        | getMut hk' h3 => rw [ha] at hk'; cases hk'; exact ⟨_, _, h3⟩
      | refused hk2 hw2 =>
        obtain ⟨k', d', g', m', h3⟩ := other_weak D hw2
        exact absurd h3 (hweak _ _ _ _)

/-! ## Programs that meet the hypotheses -/

namespace Arc

/-- Two threads with a handle each to one slice call `clone_left` at the same time; the right
half is cut off, too; then both drop the whole slice, again at the same time, and one of them
its left half. -/
def rested : List (Act Nat) :=
  [.op (.new [1, 2, 3, 4, 5]), .run 0 8, .op (.clone 0), .run 1 8, .op (.cloneSide .L 0), .run 2 3, .op (.cloneSide .L 1), .run 3 30, .run 2 30,
    .op (.cloneSide .R 1), .run 4 30, .op (.drop 0), .run 5 2, .op (.drop 1), .run 6 30, .run 5 30, .op (.drop 3), .run 7 30]

theorem rested_reach : Conf.Reach (fun c op => c.careful op = true) false (after rested) :=
  execIf_reach (as := rested) .init (by rfl)

theorem rested_quiet : (after rested).Quiet := by
  have h : (after rested).calls.all (fun cl => cl.fin) = true := by decide +kernel
  exact fun cl hcl => List.all_eq_true.1 h cl hcl

theorem rested_handles {k : Nat} {e : Ent} (h : (after rested).get k = some e) : (k = 2 ∧ e = ⟨.strong 2 1, false⟩) ∨ (k = 4 ∧ e = ⟨.strong 3 2, false⟩) := by
  have hl : (after rested).hs = [none, none, some ⟨.strong 2 1, false⟩, none, some ⟨.strong 3 2, false⟩] := by decide +kernel
  simp only [Conf.get, hl] at h
  match k, h with
  | 0, h | 1, h | 3, h => cases h
  | 2, h => cases h; exact .inl ⟨rfl, rfl⟩
  | 4, h => cases h; exact .inr ⟨rfl, rfl⟩
  | k + 5, h => cases h

theorem rested_noRefs : NoRefs (after rested) := by
  intro k e h
  rcases rested_handles h with ⟨_, rfl⟩ | ⟨_, rfl⟩ <;> rfl

theorem rested_fits : ∃ u, Fits u (after rested) := rested_reach.bounded careful_tame

/-- C58_at_rest, C58_only: the hypotheses hold, and the handles left are the two halves. -/
example : (∃ u, Fits u (after rested)) ∧ (after rested).Quiet ∧ NoRefs (after rested) ∧
    Conf.range (after rested).a (.strong 2 1) = .ok (some (0, 0, 2)) ∧ Conf.range (after rested).a (.strong 3 2) = .ok (some (0, 2, 3)) :=
  ⟨rested_fits, rested_quiet, rested_noRefs, rfl, rfl⟩

theorem rested_left : (after rested).Shows 2 0 0 := ⟨⟨.strong 2 1, false⟩, 0, 2, by decide +kernel, rfl, by decide, by decide⟩

theorem rested_right : (after rested).Shows 4 0 2 := ⟨⟨.strong 3 2, false⟩, 2, 3, by decide +kernel, rfl, by decide, by decide⟩

theorem rested_others (k' d' g' : Nat) (m' : Bool) (hk : k' ≠ 2) (h : (after rested).get k' = some ⟨.strong d' g', m'⟩) :
    (∃ b i, (after rested).Shows k' b i) ∧ ∀ b i, (after rested).Shows 2 b i → ¬ (after rested).Shows k' b i := by
  rcases rested_handles h with ⟨rfl, h2⟩ | ⟨rfl, h2⟩
  · exact absurd rfl hk
  · refine ⟨⟨0, 2, rested_right⟩, ?_⟩
    rintro b i ⟨e1, o1, l1, h3, h4, h5, h6⟩ ⟨e2, o2, l2, h7, h8, h9, h10⟩
    have q1 : Conf.range (after rested).a (.strong 2 1) = .ok (some (0, 0, 2)) := rfl
    have q2 : Conf.range (after rested).a (.strong 3 2) = .ok (some (0, 2, 3)) := rfl
    rcases rested_handles h3 with ⟨_, rfl⟩ | ⟨h, _⟩
    · rcases rested_handles h7 with ⟨h, _⟩ | ⟨_, rfl⟩
      · cases h
      · rw [q1] at h4; cases h4
        rw [q2] at h8; cases h8
        omega
    · cases h

/-- C58_into_mut_granted, C58_get_mut_granted: both halves are in use, and the left one can be
had mutably. -/
example : (∃ m c', Ret (after rested) (.intoMut 2) .handle [m] c') ∧ ∃ m c', Ret (after rested) (.getMut 2) .handle [m] c' :=
  ⟨C58_into_mut_granted careful_tame rested_reach rested_quiet rested_noRefs (d := 2) (g := 1) (by decide +kernel) ⟨0, 0, rested_left⟩ rested_others,
    C58_get_mut_granted careful_tame rested_reach rested_quiet rested_noRefs (d := 2) (g := 1) (by decide +kernel) ⟨0, 0, rested_left⟩ rested_others (by
      intro k' d' g' m' h
      rcases rested_handles h with ⟨_, h⟩ | ⟨_, h⟩ <;> cases h)⟩

end Arc
end Verif

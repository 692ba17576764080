import Verif.Props.RcSafety
/-!
# Mutable access, conversion and upgrading (C18-C23)

Members of a family (everything cloned and split from one slice) are named `(f, p)`: family
`f`, halving steps `p`, the last one first. `World.OtherStrong`, `World.WeakBelow` and
`World.StrongAbove` (`Verif.Spec.Histories`) speak about the handles that exist.
-/

namespace Verif
open Spec Rc
variable {α : Type} {umax : Nat} {zst : Bool} {ops : List (Op α)} {s : State α}

/-! ## Exact conditions -/

/-- C18: `get_mut` grants access exactly if no other `RcSlice` lies on the same subslice, on
one it was cut from or on one cut from it, and no `WeakSlice` refers to the same subslice or
one cut from it. -/
theorem C18_get_mut_iff {k f : Nat} {p : List Side} (hk : (World.after umax zst ops).get k = some (.shared f p)) (j : Nat) (a : α) :
    (answer umax zst ops (.getMut k j a) = .ok .done ↔
      ¬ (World.after umax zst ops).OtherStrong k f p ∧ ¬ (World.after umax zst ops).WeakBelow f p) ∧
    (answer umax zst ops (.getMut k j a) = .ok .none ↔
      (World.after umax zst ops).OtherStrong k f p ∨ (World.after umax zst ops).WeakBelow f p) := by
  rw [answer_eq, ← World.otherStrong_iff, ← World.otherWeak_iff hk (by intro f q h; cases h)]
  simp only [World.act, hk]
  cases (World.after umax zst ops).otherHand k (World.sharedConflict f p) <;>
    cases (World.after umax zst ops).otherHand k (World.weakConflict f p) <;> simp <;> split <;> simp

/-- C18: whether it is granted does not depend on what is then written. -/
theorem C18_any_item {k f : Nat} {p : List Side} (hk : (World.after umax zst ops).get k = some (.shared f p)) (j j' : Nat) (a a' : α) :
    answer umax zst ops (.getMut k j a) = answer umax zst ops (.getMut k j' a') := by
  rw [answer_eq, answer_eq]
  simp only [World.act, hk]
  split
  · rfl
  · split <;> split <;> rfl

/-- Handle 1 is on the left half of handle 0, handle 2 is a weak handle to it. -/
def demo2 : List (Op Nat) := [.rcNew [10, 11, 12, 13], .cloneSide .L 0, .downgrade 1]

example : (World.after 100 false demo2).get 1 = some (.shared 0 [.L]) ∧ answer 100 false demo2 (.getMut 1 0 7) = .ok .none ∧
    answer 100 false (demo2 ++ [.drop 0]) (.getMut 1 0 7) = .ok .none ∧
    answer 100 false (demo2 ++ [.drop 0, .drop 2]) (.getMut 1 0 7) = .ok .done ∧
    answer 100 false (demo2 ++ [.drop 2]) (.getMut 1 0 7) = .ok .none ∧
    -- the weak handle to the part also blocks the whole
    answer 100 false (demo2 ++ [.drop 1]) (.getMut 0 0 7) = .ok .none ∧
    answer 100 false (demo2 ++ [.drop 1, .drop 2]) (.getMut 0 0 7) = .ok .done := ⟨rfl, rfl, rfl, rfl, rfl, rfl, rfl⟩

/-- C19: after `get_mut` granted access, and as long as the handle itself is not used (that
is what the borrow means), no call whatever gives another handle that shows one of its items,
and the handle goes on showing the items it showed. -/
theorem C19_exclusive {k j : Nat} {a : α} {more : List (Op α)} {s' : State α}
    (hm : answer umax zst ops (.getMut k j a) = .ok .done) (hu : Unused k more)
    (h : after umax zst ops = .ok s) (h' : after umax zst (ops ++ .getMut k j a :: more) = .ok s') {b i : Nat} (hs : s.Sees umax k b i) :
    s'.Sees umax k b i ∧ ∀ k', s'.Sees umax k' b i → k' = k := by
  have R := Rel.of_after h
  have R' := Rel.of_after h'
  rw [answer_eq] at hm
  obtain ⟨f, p, hk⟩ : ∃ f p, (World.after umax zst ops).get k = some (.shared f p) := by
    simp only [World.act] at hm
    split at hm
    · next f p hk => exact ⟨f, p, hk⟩
    · cases hm
  have hm2 : answer umax zst ops (.getMut k j a) = .ok .done := by rw [answer_eq]; exact hm
  obtain ⟨n1, n2⟩ := (C18_get_mut_iff hk j a).1.1 hm2
  have A : (World.after umax zst ops).Alone k f p := ⟨hk, R.wf.fam (.inl hk), n1, n2⟩
  have e1 : (World.after umax zst (ops ++ [.getMut k j a])).hs = (World.after umax zst ops).hs := by
    rw [World.after_snoc]
    simp only [World.call, World.act, hk, World.settle]
    repeat' split
    all_goals rfl
  have e2 : (World.after umax zst (ops ++ [.getMut k j a])).fams = (World.after umax zst ops).fams := by
    rw [World.after_snoc]
    simp only [World.call, World.act, hk, World.settle]
    repeat' split
    all_goals rfl
  have g : ∀ k', (World.after umax zst (ops ++ [.getMut k j a])).get k' = (World.after umax zst ops).get k' := by
    intro k'; simp only [World.get, e1]
  have A1 : (World.after umax zst (ops ++ [.getMut k j a])).Alone k f p := by
    refine ⟨by rw [g]; exact hk, by rw [e2]; exact A.lt, ?_, ?_⟩
    · rintro ⟨k', q, x1, x2, x3⟩; exact n1 ⟨k', q, x1, by rw [← g]; exact x2, x3⟩
    · rintro ⟨k', q, x1, x2⟩; exact n2 ⟨k', q, by rw [← g]; exact x1, x2⟩
  have e3 : ops ++ .getMut k j a :: more = ops ++ [.getMut k j a] ++ more := by simp
  have A2 := A1.run umax more hu
  rw [← World.after_append, ← e3] at A2
  obtain ⟨l, hl⟩ : ∃ l, (World.after umax zst (ops ++ .getMut k j a :: more)).fams = (World.after umax zst ops).fams ++ l := by
    rw [e3, World.after_append, ← e2]
    exact World.run_fams umax more _
  have c1 := (R.sees_of hk).1 hs
  have c2 : (World.after umax zst (ops ++ .getMut k j a :: more)).covers b i (.shared f p) = true := by
    rw [World.covers_same hl (R.wf.famOk hk)]; exact c1
  refine ⟨(R'.sees_of A2.here).2 c2, fun k' hk' => ?_⟩
  obtain ⟨y, hy, hc⟩ := R'.sees_iff.1 hk'
  by_cases e : k' = k
  · exact e
  · obtain ⟨f', p', q', z1, z2, z3⟩ := R'.wf.disj A2.here hy (Ne.symm e) c2 hc
    cases z1; subst z2
    exact absurd ⟨k', q', e, hy, z3⟩ A2.strong

/-- Handle 1 is on the left half, handle 0 on the right half, handle 3 a weak handle to the
right half; handle 1 is borrowed. -/
def demo3 : List (Op Nat) := [.rcNew [10, 11, 12, 13], .cloneSide .L 0, .splitOff .L 0, .drop 2, .downgrade 0]

example : answer 100 false demo3 (.getMut 1 1 7) = .ok .done ∧
    Unused (α := Nat) 1 [.upgrade 3, .cloneSide .R 0, .drop 0, .upgrade 3] ∧
    answer 100 false (demo3 ++ [.getMut 1 1 7, .upgrade 3, .cloneSide .R 0, .drop 0, .upgrade 3]) (.read 1) = .ok (.items [10, 7]) := by
  refine ⟨rfl, ?_, rfl⟩
  intro op h; simp at h; rcases h with rfl | rfl | rfl | rfl <;> simp [Op.on]

/-- C20: `into_mut` succeeds exactly if no other `RcSlice` lies on the same, an enclosing or a
contained subslice. -/
theorem C20_into_mut_iff {k f : Nat} {p : List Side} (hk : (World.after umax zst ops).get k = some (.shared f p)) :
    (answer umax zst ops (.intoMut k) = .ok .done ↔ ¬ (World.after umax zst ops).OtherStrong k f p) ∧
    (answer umax zst ops (.intoMut k) = .ok .err ↔ (World.after umax zst ops).OtherStrong k f p) := by
  rw [answer_eq, ← World.otherStrong_iff]
  simp only [World.act, hk]
  cases (World.after umax zst ops).otherHand k (World.sharedConflict f p) <;> simp

theorem after_snoc_code (umax : Nat) (zst : Bool) (ops : List (Op α)) (op : Op α) (h : after umax zst ops = .ok s) :
    after umax zst (ops ++ [op]) = (call umax s op).map (·.1) := by
  have aux : ∀ (ops : List (Op α)) (s0 s : State α), (run umax s0 ops).map (·.1) = .ok s →
      (run umax s0 (ops ++ [op])).map (·.1) = (call umax s op).map (·.1) := by
    intro ops
    induction ops with
    | nil =>
      intro s0 s h
      cases h
      simp only [List.nil_append, run, bind, Except.bind, pure, Except.pure]
      cases call umax s0 op <;> rfl
    | cons o ops ih =>
      intro s0 s h
      simp only [List.cons_append, run, bind, Except.bind] at h ⊢
      cases hc : call umax s0 o with
      | error e => rw [hc] at h; cases h
      | ok r =>
        rw [hc] at h
        simp only [pure, Except.pure] at h ⊢
        have : (run umax r.1 ops).map (·.1) = .ok s := by
          cases hr : run umax r.1 ops with
          | error e => rw [hr] at h; cases h
          | ok q => rw [hr] at h; exact h
        rw [← ih r.1 s this]
        cases run umax r.1 (ops ++ [op]) <;> rfl
  exact aux ops _ s h

theorem intoMut_none {h h' : Heap α} {d i : Nat} (e : intoMut h d i = .ok (h', none)) : h' = h := by
  simp only [intoMut] at e
  split at e
  · cases e
  · split at e
    · split at e
      · simp only [bind, Except.bind] at e
        split at e
        · cases e
        · split at e <;> cases e
      · cases e; rfl
    · cases e; rfl

/-- C20: if `into_mut` fails, nothing has changed: the whole state, including all counts and
internal objects, is the same. -/
theorem C20_err_unchanged {k : Nat} (h : after umax zst ops = .ok s) (he : answer umax zst ops (.intoMut k) = .ok .err) :
    after umax zst (ops ++ [.intoMut k]) = .ok s := by
  rw [after_snoc_code umax zst ops _ h]
  simp only [answer, h, Except.bind] at he
  have hc : ∃ s', call umax s (.intoMut k) = .ok (s', .err) := by
    cases hc : call umax s (.intoMut k) with
    | error e => rw [hc] at he; cases he
    | ok r => rw [hc] at he; simp only [Except.map, Except.ok.injEq] at he; exact ⟨r.1, by rw [← he]⟩
  obtain ⟨s', hc⟩ := hc
  obtain hx | hx : exec umax s (.intoMut k) = .ok (s, .err, []) ∨
      ∀ s' ts, exec umax s (.intoMut k) ≠ .ok (s', .err, ts) := by
    simp only [exec]
    cases s.get k with
    | none => right; simp
    | some x =>
      cases x with
      | strong d i =>
        simp only [bind, Except.bind]
        cases hi : intoMut s.h d i with
        | error e => right; simp
        | ok q =>
          obtain ⟨h', o⟩ := q
          cases o with
          | some q => right; simp [pure, Except.pure]
          | none => left; rw [intoMut_none hi]; rfl
      | _ => right; simp
  · simp only [call, hx, bind, Except.bind, drain, fuelFor, pure, Except.pure, Except.map]
  · exfalso
    simp only [call, bind, Except.bind] at hc
    split at hc
    · cases hc
    · next v hv =>
      split at hc
      · cases hc
      · simp only [pure, Except.pure, Except.ok.injEq, Prod.mk.injEq] at hc
        exact hx v.1 v.2.2 (by rw [hv, ← hc.2])

example : answer 100 false demo2 (.intoMut 1) = .ok .err ∧ answer 100 false (demo2 ++ [.drop 0]) (.intoMut 1) = .ok .done ∧
    answer 100 false (demo2 ++ [.drop 1]) (.intoMut 0) = .ok .done := ⟨rfl, rfl, rfl⟩

/-- C21: a successful `into_mut` drops nothing and changes no item, and the unique slice shows
what the `RcSlice` showed. -/
theorem C21_same_items {k : Nat} {s' : State α} (h : after umax zst ops = .ok s) (hm : answer umax zst ops (.intoMut k) = .ok .done)
    (h' : after umax zst (ops ++ [.intoMut k]) = .ok s') :
    s'.h.slot = s.h.slot ∧ s'.h.sk.mem = s.h.sk.mem ∧ (∃ r, s'.get k = some (.uniq r)) ∧
      (∀ k' b i, s'.Sees umax k' b i ↔ s.Sees umax k' b i) ∧ answer umax zst (ops ++ [.intoMut k]) (.read k) = answer umax zst ops (.read k) := by
  have R := Rel.of_after h
  have R' := Rel.of_after h'
  rw [answer_eq] at hm
  obtain ⟨f, p, hk⟩ : ∃ f p, (World.after umax zst ops).get k = some (.shared f p) := by
    simp only [World.act] at hm
    split at hm
    · next f p hk => exact ⟨f, p, hk⟩
    · cases hm
  have hc : (World.after umax zst ops).otherHand k (World.sharedConflict f p) = false := by
    simp only [World.act, hk] at hm
    rw [← Bool.not_eq_true]; intro h; rw [h] at hm; cases hm
  have ea : (World.after umax zst ops).act umax (.intoMut k) = ((World.after umax zst ops).put k
      (.uniq ((World.after umax zst ops).fam f).buf ((World.after umax zst ops).rangeOf f p) ((World.after umax zst ops).holdsOf f p)), .done) := by
    simp only [World.act, hk, hc]; rfl
  have ew : World.after umax zst (ops ++ [.intoMut k]) = ((World.after umax zst ops).put k
      (.uniq ((World.after umax zst ops).fam f).buf ((World.after umax zst ops).rangeOf f p) ((World.after umax zst ops).holdsOf f p))).settle := by
    rw [World.after_snoc]; simp only [World.call, ea]
  generalize hw : World.after umax zst ops = w at *
  have hk' : (World.after umax zst (ops ++ [.intoMut k])).get k = some (.uniq (w.fam f).buf (w.rangeOf f p) (w.holdsOf f p)) := by
    rw [ew]; exact World.get_put_self hk _
  have hcov : ∀ b i k', (∃ y, (World.after umax zst (ops ++ [.intoMut k])).get k' = some y ∧
        (World.after umax zst (ops ++ [.intoMut k])).covers b i y = true) ↔ ∃ y, w.get k' = some y ∧ w.covers b i y = true := by
    intro b i k'
    rw [ew]
    show (∃ y, (w.put k _).get k' = some y ∧ w.covers b i y = true) ↔ _
    by_cases e : k' = k
    · subst e
      rw [World.get_put_self hk]
      constructor
      · rintro ⟨y, h1, h2⟩; cases h1; exact ⟨_, hk, h2⟩
      · rintro ⟨y, h1, h2⟩; rw [hk] at h1; cases h1; exact ⟨_, rfl, h2⟩
    · rw [World.get_put_ne _ e]
  have hslot : (World.after umax zst (ops ++ [.intoMut k])).items = w.items := by
    funext b i
    cases hl : w.items b i with
    | live a =>
      have hl2 : s.h.slot b i = .live a := by rw [← R.core.items]; exact hl
      obtain ⟨k', hk'⟩ := (C15_alive_iff_shown h b i).1 ⟨a, hl2⟩
      obtain ⟨y, y1, y2⟩ := (hcov b i k').2 (R.sees_iff.1 hk')
      rw [ew] at y1 y2 ⊢
      rw [World.settle_get] at y1
      rw [World.settle_covers] at y2
      rw [World.settle_live _ y1 y2]; exact hl
    | _ => rw [ew]; simp only [World.settle, World.put, hl]
  have hmem : (World.after umax zst (ops ++ [.intoMut k])).mem = w.mem := by
    funext b
    rw [ew]
    show (w.mem b && (w.put k _).anyHand (w.keeps b)) = w.mem b
    cases hb : w.mem b with
    | false => rfl
    | true =>
      have I : Inv s.h (tabToks umax s.hs) := by simpa using R.inv
      have := (hold_iff R b).1 (I.mem_hold (tabToks_quiet umax s.hs) (by rw [← R.core.mem]; exact hb))
      obtain ⟨k', y, y1, y2⟩ := World.anyHand_iff.1 this
      rw [Bool.true_and]
      apply World.anyHand_iff.2
      by_cases e : k' = k
      · subst e; rw [hk] at y1; cases y1
        exact ⟨k', _, World.get_put_self hk _, y2⟩
      · exact ⟨k', y, by rw [World.get_put_ne _ e]; exact y1, y2⟩
  refine ⟨by rw [← R'.core.items, ← R.core.items, hslot], by rw [← R'.core.mem, ← R.core.mem, hmem], ?_, ?_, ?_⟩
  · rcases R'.at_ k with ⟨_, e⟩ | ⟨x, y, e1, e2, hr⟩
    · rw [hk'] at e; cases e
    · rw [hk'] at e2; cases e2
      generalize hy : Hand.uniq (w.fam f).buf (w.rangeOf f p) (w.holdsOf f p) = y at hr
      cases hr with
      | uniq r _ => exact ⟨r, e1⟩
      | _ => cases hy
  · intro k' b i; rw [R'.sees_iff, R.sees_iff]; exact hcov b i k'
  · rw [answer_eq, answer_eq, hw]
    have e1 : (World.after umax zst (ops ++ [.intoMut k])).look (w.fam f).buf (w.rangeOf f p) = w.look (w.fam f).buf (w.rangeOf f p) :=
      World.look_congr fun i _ => by rw [hslot]
    simp only [World.act, hk, hk', World.view, e1]

/-- C21: the unique slices, iterators and parts overlap no other handle, ever. -/
theorem C21_unique {k k' b i : Nat} {x : Handle} (h : after umax zst ops = .ok s) (hk : s.get k = some x) (hx : ∀ d i, x ≠ .strong d i)
    (h1 : s.Sees umax k b i) (h2 : s.Sees umax k' b i) : k' = k := by
  have R := Rel.of_after h
  obtain ⟨y, y1, y2⟩ := R.sees_iff.1 h1
  obtain ⟨y', y3, y4⟩ := R.sees_iff.1 h2
  by_cases e : k' = k
  · exact e
  · obtain ⟨f, p, p', rfl, rfl, _⟩ := R.wf.disj y1 y3 (Ne.symm e) y2 y4
    rcases R.at_ k with ⟨e1, _⟩ | ⟨x', y, e1, e2, hr⟩
    · rw [hk] at e1; cases e1
    · rw [hk] at e1; cases e1
      rw [y1] at e2; cases e2
      cases hr with
      | shared d i _ _ _ => exact absurd rfl (hx d i)

/-- C21: after `into_mut` of subslice `(f, p)`, a `WeakSlice` to it or to a part of it never
upgrades again. -/
theorem C21_weak_gone {k f : Nat} {p : List Side} (hk : (World.after umax zst ops).get k = some (.shared f p))
    (hm : answer umax zst ops (.intoMut k) = .ok .done) (more : List (Op α)) {k' : Nat} {q : List Side}
    (hw : (World.after umax zst (ops ++ .intoMut k :: more)).get k' = some (.weak f q)) (hpq : p <:+ q) :
    answer umax zst (ops ++ .intoMut k :: more) (.upgrade k') = .ok .none := by
  have n := (C20_into_mut_iff hk).1.1 hm
  have G : (World.after umax zst (ops ++ [.intoMut k])).Gone f p := by
    have ea : (World.after umax zst ops).act umax (.intoMut k) = ((World.after umax zst ops).put k
        (.uniq ((World.after umax zst ops).fam f).buf ((World.after umax zst ops).rangeOf f p) ((World.after umax zst ops).holdsOf f p)), .done) := by
      have hc : (World.after umax zst ops).otherHand k (World.sharedConflict f p) = false := by
        rw [← Bool.not_eq_true, World.otherStrong_iff]; exact n
      simp only [World.act, hk, hc]; rfl
    rw [World.after_snoc]
    refine ⟨?_, fun k1 q1 h1 => ?_⟩
    · simp only [World.call, ea]; exact (after_wf umax zst ops).fam (.inl hk)
    · simp only [World.call, ea, World.settle_get] at h1
      rcases (World.get_put_iff hk).1 h1 with ⟨h2, h3⟩ | ⟨_, h3⟩
      · exact fun hr => n ⟨k1, q1, h2, h3, hr⟩
      · cases h3
  have G2 := G.run umax more
  have e3 : ops ++ .intoMut k :: more = ops ++ [.intoMut k] ++ more := by simp
  rw [← World.after_append, ← e3] at G2
  rw [answer_eq]
  have : (World.after umax zst (ops ++ .intoMut k :: more)).anyHand (World.sharedAbove f q) = false := by
    rw [← Bool.not_eq_true, World.strongAbove_iff]
    rintro ⟨k1, q1, h1, h2⟩
    exact G2.2 _ _ h1 (World.suffix_total hpq h2)
  simp only [World.act, hw, this]; rfl

example : answer 100 false (demo2 ++ [.drop 0]) (.intoMut 1) = .ok .done ∧
    (World.after 100 false (demo2 ++ [.drop 0])).get 1 = some (.shared 0 [.L]) ∧
    (World.after 100 false (demo2 ++ [.drop 0] ++ .intoMut 1 :: [.intoImmut 1])).get 2 = some (.weak 0 [.L]) ∧
    answer 100 false (demo2 ++ [.drop 0] ++ .intoMut 1 :: [.intoImmut 1]) (.upgrade 2) = .ok .none ∧
    answer 100 false (demo2 ++ [.drop 0]) (.upgrade 2) = .ok .handle := ⟨rfl, rfl, rfl, rfl, rfl⟩

/-! ## Weak handles -/

/-- C22: `upgrade` succeeds exactly if some `RcSlice` lies on the same subslice or on one it
was cut from. The handle obtained is on the same subslice. -/
theorem C22_upgrade_iff {k f : Nat} {p : List Side} (hk : (World.after umax zst ops).get k = some (.weak f p)) :
    (answer umax zst ops (.upgrade k) = .ok .handle ↔ (World.after umax zst ops).StrongAbove f p) ∧
    (answer umax zst ops (.upgrade k) = .ok .none ↔ ¬ (World.after umax zst ops).StrongAbove f p) ∧
    (answer umax zst ops (.upgrade k) = .ok .handle →
      (World.after umax zst (ops ++ [.upgrade k])).get (World.after umax zst ops).hs.length = some (.shared f p)) := by
  rw [answer_eq, ← World.strongAbove_iff, World.after_snoc]
  simp only [World.act, hk, World.call]
  cases (World.after umax zst ops).anyHand (World.sharedAbove f p)
  · simp
  · simp only [if_true, not_true_eq_false, reduceCtorEq, Except.ok.injEq, true_and]
    exact fun _ => World.get_push_self

/-- C22: the handle obtained shows the items that the handle showed when it was downgraded,
whatever happened in between. -/
theorem C22_same_items {k : Nat} {more : List (Op α)} {s1 s2 : State α} (h : after umax zst ops = .ok s)
    (hd : answer umax zst ops (.downgrade k) = .ok .handle)
    (h1 : after umax zst (ops ++ .downgrade k :: more) = .ok s1) (hu : Unused s.hs.length more)
    (ha : answer umax zst (ops ++ .downgrade k :: more) (.upgrade s.hs.length) = .ok .handle)
    (h2 : after umax zst (ops ++ .downgrade k :: more ++ [.upgrade s.hs.length]) = .ok s2) (b i : Nat) :
    s2.Sees umax s1.hs.length b i ↔ s.Sees umax k b i := by
  have R := Rel.of_after h
  have R1 := Rel.of_after h1
  have R2 := Rel.of_after h2
  rw [answer_eq] at hd
  obtain ⟨f, p, hk⟩ : ∃ f p, (World.after umax zst ops).get k = some (.shared f p) := by
    simp only [World.act] at hd
    split at hd
    · next f p hk => exact ⟨f, p, hk⟩
    · cases hd
  have hw : (World.after umax zst (ops ++ [.downgrade k])).get s.hs.length = some (.weak f p) := by
    rw [World.after_snoc]
    simp only [World.call, World.act, hk, World.settle_get, R.hs_len]
    exact World.get_push_self
  have e3 : ops ++ .downgrade k :: more = ops ++ [.downgrade k] ++ more := by simp
  have hw1 : (World.after umax zst (ops ++ .downgrade k :: more)).get s.hs.length = some (.weak f p) := by
    rw [e3, World.after_append]; exact World.run_get umax more hw hu
  have hw2 := (C22_upgrade_iff hw1).2.2 ha
  rw [← R1.hs_len] at hw2
  rw [R2.sees_of hw2, R.sees_of hk]
  obtain ⟨l, hl⟩ : ∃ l, (World.after umax zst (ops ++ .downgrade k :: more ++ [.upgrade s.hs.length])).fams =
      (World.after umax zst ops).fams ++ l := by
    rw [List.append_assoc, World.after_append]; exact World.run_fams umax _ _
  rw [World.covers_same hl (R.wf.famOk hk)]

example : (World.after 100 false demo2).get 2 = some (.weak 0 [.L]) ∧
    answer 100 false demo2 (.upgrade 2) = .ok .handle ∧
    -- the whole slice is enough
    answer 100 false (demo2 ++ [.drop 1]) (.upgrade 2) = .ok .handle ∧
    -- a part of it is not
    answer 100 false (demo2 ++ [.drop 0, .splitOff .L 1]) (.upgrade 2) = .ok .none ∧
    answer 100 false (demo2 ++ [.drop 0, .drop 1]) (.upgrade 2) = .ok .none ∧
    Unused (α := Nat) 2 [.drop 1] ∧
    answer 100 false (demo2 ++ [.drop 1, .upgrade 2]) (.read 3) = .ok (.items [10, 11]) := by
  refine ⟨rfl, rfl, rfl, rfl, rfl, ?_, rfl⟩
  intro op h; simp at h; subst h; simp [Op.on]

/-- C23: what `WeakSlice::new` returns, and every clone of it, never upgrades. -/
theorem C23_new_never_upgrades {k : Nat} (hk : (World.after umax zst ops).get k = some .weakNone) :
    answer umax zst ops (.upgrade k) = .ok .none ∧
    (World.after umax zst (ops ++ [.clone k])).get (World.after umax zst ops).hs.length = some .weakNone ∧
    ∀ more, Unused k more → answer umax zst (ops ++ more) (.upgrade k) = .ok .none := by
  have g : ∀ ops : List (Op α), (World.after umax zst ops).get k = some .weakNone → answer umax zst ops (.upgrade k) = .ok .none := by
    intro ops hk; rw [answer_eq]; simp only [World.act, hk]
  refine ⟨g ops hk, ?_, fun more hu => g _ ?_⟩
  · rw [World.after_snoc]
    simp only [World.call, World.act, hk, World.settle_get]
    exact World.get_push_self
  · rw [World.after_append]; exact World.run_get umax more hk hu

/-- C23: `WeakSlice::new` returns such a handle. -/
theorem C23_new (ops : List (Op α)) :
    answer umax zst ops .weakNew = .ok .handle ∧
    (World.after umax zst (ops ++ [.weakNew])).get (World.after umax zst ops).hs.length = some .weakNone := by
  refine ⟨by rw [answer_eq]; rfl, ?_⟩
  rw [World.after_snoc]
  simp only [World.call, World.act, World.settle_get]
  exact World.get_push_self (w := (World.after umax zst ops).newFam _)

example : (World.after 100 false (demo2 ++ [.weakNew, .clone 3])).get 4 = some .weakNone ∧
    answer 100 false (demo2 ++ [.weakNew, .clone 3]) (.upgrade 4) = .ok .none := ⟨rfl, rfl⟩

end Verif

import Verif.Arc.Proofs.Threads4
import Verif.Props.Iteration
/-!
# C57: `split_off` and `ArcSliceParts` among other threads

`ArcSlice::split_off_left` and `split_off_right` return the halves, and the iterators over the parts of an `ArcSlice` yield exactly the
specified parts, whatever other threads do at the same time, and even if destructors panic in other threads. These programs
never panic themselves. They are never stuck: from every situation they can come to an end.
-/

namespace Verif
open Arc
open Spec (Side Slot Rng End parts deqRun deqStep)
variable {α : Type} {P : Rules α} {zst : Bool} {c c1 c2 c' : Conf α} {W : Nat → Nat → Prop} {mine mine' : List Nat} {umax b m : Nat} {debug : Bool} {r : Rng}
  {it it' : BinaryPartsIter Nat} {w : List End}

namespace Arc

/-- The handles in the deque of an iterator, and what is known about it at any time of its life. -/
structure LifeI (P : Rules α) (zst : Bool) (umax : Nat) (debug : Bool) (b : Nat) (r : Rng) (m f nb cap : Nat) (c : Conf α) (it : BinaryPartsIter Nat) (w : List End) :
    Prop where
  reach : Conf.PReach P zst c
  own : ItOwn c it.deque.items b r m f nb cap it []
  left : (deqRun w (rparts m r)).2 = win (rparts m r) f nb
  le : f + nb ≤ 2 ^ m
  umax : 2 ^ m ≤ umax
  cap : debug = true → capOf m ≤ cap

theorem ItOwn.forget {f nb cap : Nat} {Y : List (Nat × Seen)} (h : ItOwn c mine b r m f nb cap it Y) : ItOwn c it.deque.items b r m f nb cap it [] := by
  obtain ⟨ks, rfl, h1, o⟩ := h.ex
  have hf : (inB b ks).map Prod.fst = ks.map Prod.fst := by simp [inB]
  refine ⟨ks, rfl, h1, ?_⟩
  rw [List.append_nil]
  refine ⟨?_, fun k => by rw [hf], fun k v hm => o.sees k v (List.mem_append_left _ hm)⟩
  have := o.nodup
  rw [List.map_append] at this
  exact this.sublist (List.sublist_append_left _ _)

theorem deqRun_snoc {β : Type} (w : List End) (e : End) (xs : List β) : (deqRun (w ++ [e]) xs).2 = (deqStep e (deqRun w xs).2).2 := by
  induction w generalizing xs with
  | nil => rfl
  | cons a w ih => exact ih _

/-- One call of `next` or `next_back`. -/
theorem LifeI.next (hP : PTame P) {f nb cap : Nat} (I : LifeI P zst umax debug b r m f nb cap c it w) {e : End} {res : Except Fault (Option Nat × BinaryPartsIter Nat)}
    (run : Runs P W c it.deque.items (nextPart umax debug e it) c' mine' res) :
    ∃ o it' f' nb' cap', res = .ok (o, it') ∧ LifeI P zst umax debug b r m f' nb' cap' c' it' (w ++ [e]) ∧
      (match (deqStep e (deqRun w (rparts m r)).2).1 with
        | some q => ∃ k, o = some k ∧ ItOwn c' mine' b r m f' nb' cap' it' [(k, Seen.sh b q)]
        | none => o = none ∧ ItOwn c' mine' b r m f' nb' cap' it' []) := by
  have hlen : (rparts m r).length = 2 ^ m := parts_length ..
  by_cases hfb : f + nb = 2 ^ m
  · obtain ⟨h1, h2, h3⟩ := run.next_done hP I.reach I.own hfb
    have hw : (deqRun w (rparts m r)).2 = [] := by rw [I.left, win_done _ (by omega)]
    refine ⟨none, it, f, nb, cap, h1, ⟨h2, h3.forget, ?_, I.le, I.umax, I.cap⟩, ?_⟩
    · rw [deqRun_snoc, I.left, win_done _ (by omega)]; cases e <;> rfl
    · rw [hw]; cases e <;> exact ⟨rfl, h3⟩
  · have hlt : f + nb < 2 ^ m := by have := I.le; omega
    cases e with
    | front =>
      obtain ⟨k, q, it', cap', h1, h2, h3, h4, h5, h6⟩ := run.next_inv hP I.reach I.own I.umax I.cap hlt
      have hd : deqStep .front (deqRun w (rparts m r)).2 = (some q, win (rparts m r) (f + 1) nb) := by
        simp only [deqStep, I.left, win_tail]; rw [win_head _ (by omega), h2]
      refine ⟨some k, it', f + 1, nb, cap', h1, ⟨h3, h4.forget, ?_, by omega, I.umax, h5⟩, ?_⟩
      · rw [deqRun_snoc, hd]
      · rw [hd]; exact ⟨k, rfl, h4⟩
    | back =>
      obtain ⟨k, q, it', cap', h1, h2, h3, h4, h5, h6⟩ := run.nextBack_inv hP I.reach I.own I.umax I.cap hlt
      have hd : deqStep .back (deqRun w (rparts m r)).2 = (some q, win (rparts m r) f (nb + 1)) := by
        simp only [deqStep, I.left, win_dropLast]; rw [win_last _ (by omega), hlen, h2]
      refine ⟨some k, it', f, nb + 1, cap', h1, ⟨h3, h4.forget, ?_, by omega, I.umax, h5⟩, ?_⟩
      · rw [deqRun_snoc, hd]
      · rw [hd]; exact ⟨k, rfl, h4⟩

theorem LifeI.clone (hP : PTame P) {f nb cap cap' : Nat} (I : LifeI P zst umax debug b r m f nb cap c it w) (hd : debug = true → it.deque.cap ≤ cap')
    {res : Except Fault (BinaryPartsIter Nat)} (run : Runs P W c it.deque.items (cloneParts cap' it) c' mine' res) :
    ∃ it', res = .ok it' ∧ LifeI P zst umax debug b r m f nb cap' c' it' w ∧ (∀ k, k ∈ it'.deque.items → k ∉ it.deque.items) ∧
      ∀ k, k ∈ mine' ↔ k ∈ it'.deque.items ∨ k ∈ it.deque.items := by
  obtain ⟨ks, h1, h2, o⟩ := I.own.ex
  subst h1
  have hf : ∀ ks : List (Nat × Rng), (inB b ks).map Prod.fst = ks.map Prod.fst := fun ks => by simp [inB]
  rw [List.append_nil] at o
  have hq : ∀ {res : Except Fault (List Nat)} {c2 m2}, Runs P W c (ks.map Prod.fst) (cloneAll (ks.map Prod.fst)) c2 m2 res →
      ∃ ks' : List (Nat × Rng), res = .ok (ks'.map Prod.fst) ∧ ks'.map Prod.snd = ks.map Prod.snd ∧ Conf.PReach P zst c2 ∧ Own c2 m2 (inB b ks' ++ inB b ks) := by
    intro res c2 m2 run
    rw [← hf] at run
    obtain ⟨ks2, g1, g2, g3, g4⟩ := run.cloneAll_inv (ks := inB b ks) hP I.reach (by rw [hf]; exact o) (fun x hx => hx)
    refine ⟨(ks2.map Prod.fst).zip (ks.map Prod.snd), ?_, ?_, g3, ?_⟩
    · rw [g1, List.map_fst_zip]
      have := congrArg List.length g2; simp at this; simp [this]
    · rw [List.map_snd_zip]
      have := congrArg List.length g2; simp at this; simp [this]
    · have : inB b ((ks2.map Prod.fst).zip (ks.map Prod.snd)) = ks2 := by
        have h5 : ks2.map Prod.snd = (ks.map Prod.snd).map (Seen.sh b) := by rw [g2]; simp [inB]
        have h6 : ∀ (x : List (Nat × Seen)) (y : List Rng), x.map Prod.snd = y.map (Seen.sh b) → inB b ((x.map Prod.fst).zip y) = x := by
          intro x
          induction x with
          | nil => intro y _; simp [inB]
          | cons a x ih =>
            intro y hy
            cases y with
            | nil => simp at hy
            | cons q y =>
              simp only [List.map_cons, List.cons.injEq] at hy
              have := ih y hy.2
              simp only [inB, List.map_cons, List.zip_cons_cons] at this ⊢
              rw [this, ← hy.1]
        exact h6 _ _ h5
      rw [this]; exact g4
  rcases Runs.bind run with ⟨c2, m2, l, e1, run⟩ | ⟨e, _, e1⟩
  case inr => obtain ⟨_, e2, _⟩ := hq e1; cases e2
  obtain ⟨ks', e2, e3, e4, o2⟩ := hq e1
  cases e2
  cases run with
  | ret run2 =>
    have o3 := o2.env hP e4 run2
    have hI : ItOwn c' mine' b r m f nb cap' ⟨2 ^ m, f, nb, ⟨ks'.map Prod.fst, cap'⟩⟩ (inB b ks) := ⟨ks', rfl, by rw [e3, h2], o3⟩
    refine ⟨_, rfl, ⟨run2.others.reach e4, hI.forget, I.left, I.le, I.umax, fun h => Nat.le_trans (I.cap h) (hd h)⟩, ?_, ?_⟩
    · intro k h5 h6
      have h7 := o3.nodup
      rw [List.map_append, hf, hf, List.nodup_append] at h7
      exact h7.2.2 k h5 k h6 rfl
    · intro k
      rw [o3.mem, List.map_append, hf, hf, List.mem_append]

theorem Life.inv (hP : PTame P) (h : Life P W zst umax debug b r m c it w) : ∃ f nb cap, LifeI P zst umax debug b r m f nb cap c it w := by
  induction h with
  | @new c k it h hk hn e =>
    have := BinaryPartsIter.new_pow k m id id
    rw [e] at this; cases this
    refine ⟨0, 0, capOf m, h, ⟨[(k, r)], by simp [BinaryPartsIter.state, pend_zero], by rw [pend_zero]; rfl, ?_⟩, ?_, Nat.zero_le _, hn, fun _ => Nat.le_refl _⟩
    · simp only [BinaryPartsIter.state, pend_zero]
      exact ⟨by simp [inB], fun k => by simp [inB], fun k' v hm => by simp [inB] at hm; rw [hm.1, hm.2]; exact hk⟩
    · rw [win_zero]; rfl
  | env h run ih =>
    obtain ⟨f, nb, cap, I⟩ := ih
    obtain ⟨ks, h1, h2, o⟩ := I.own.ex
    exact ⟨f, nb, cap, run.others.reach I.reach, ⟨ks, h1, h2, o.env hP I.reach run⟩, I.left, I.le, I.umax, I.cap⟩
  | next h run ih =>
    obtain ⟨f, nb, cap, I⟩ := ih
    obtain ⟨o, it', f', nb', cap', h1, h2, _⟩ := I.next hP run
    cases h1
    exact ⟨f', nb', cap', h2⟩
  | clone h hc hd run ih =>
    obtain ⟨f, nb, cap, I⟩ := ih
    obtain ⟨it', h1, h2, _⟩ := I.clone hP hd run
    cases h1
    exact ⟨f, nb, _, h2⟩

theorem Runs.cloneAll_keeps {ks : List Nat} : ∀ {c c' : Conf α} {mine mine' S : List Nat} {res : Except Fault (List Nat)}, (∀ k ∈ S, k ∈ mine) →
    Runs P W c mine (cloneAll ks) c' mine' res → PRun (Others P fun _ k => k ∈ S) W c c' ∧ ∀ k ∈ S, k ∈ mine' := by
  have weak : ∀ {c c' : Conf α} {S mine : List Nat}, (∀ k ∈ S, k ∈ mine) → PRun (Others P fun _ k => k ∈ mine) W c c' → PRun (Others P fun _ k => k ∈ S) W c c' :=
    fun h r => r.mono fun c op hp => ⟨hp.1, fun k ht hk => hp.2 k ht (h k hk)⟩
  have leaf : ∀ {c c' : Conf α} {mine mine' : List Nat} {p : Prog α Nat} {res : Except Fault Nat}, (∀ op n, p ≠ .call op n) →
      Runs P W c mine p c' mine' res → mine' = mine ∧ PRun (Others P fun _ k => k ∈ mine) W c c' := by
    intro c c' mine mine' p res hn run
    cases run with
    | ret r => exact ⟨rfl, r⟩
    | fault r => exact ⟨rfl, r⟩
    | call => exact absurd rfl (hn _ _)
  have one : ∀ {c c' : Conf α} {mine mine' S : List Nat} {res : Except Fault Nat} {k : Nat}, (∀ k ∈ S, k ∈ mine) →
      Runs P W c mine (Prog.one (.clone k)) c' mine' res → PRun (Others P fun _ k => k ∈ S) W c c' ∧ ∀ k ∈ S, k ∈ mine' := by
    intro c c' mine mine' S res k hS run
    cases run with
    | @call _ c0 c1 c2 _ _ _ _ _ cl r' _ r0 hon hp hs r1 hi hf hr r2 =>
      have hS' : ∀ k' ∈ S, k' ∈ mine.filter (fun x => (Op.clone k : Op α).takes ≠ some x) ++ cl.out := by
        intro k' hk; apply List.mem_append_left; rw [List.mem_filter]; exact ⟨hS k' hk, by simp [Op.takes]⟩
      have p1 : PRun (Others P fun _ k => k ∈ S) W c c2 := by
        refine ((weak hS r0).start (.clone k) ⟨hp, fun _ h => by cases h⟩ hs).trans ?_
        exact r1.mono fun c op hp => ⟨hp.1, fun k ht hk => hp.2 k ht (.inl ⟨hS k hk, fun h => by cases h⟩)⟩
      obtain ⟨rfl, p2⟩ := leaf (fun op n h => by revert h; dsimp only; split <;> exact fun h => by cases h) r2
      exact ⟨p1.trans (weak hS' p2), hS'⟩
  induction ks with
  | nil =>
    intro c c' mine mine' S res hS run
    cases run with
    | ret r => exact ⟨weak hS r, hS⟩
  | cons k ks ih =>
    intro c c' mine mine' S res hS run
    rcases Runs.bind run with ⟨c1, m1, k1, h1, run⟩ | ⟨f, _, h1⟩
    · obtain ⟨p1, hS1⟩ := one hS h1
      rcases Runs.bind run with ⟨c2, m2, k2, h2, run⟩ | ⟨f, _, h2⟩
      · obtain ⟨p2, hS2⟩ := ih hS1 h2
        cases run with
        | ret r => exact ⟨(p1.trans p2).trans (weak hS2 r), hS2⟩
      · obtain ⟨p2, hS2⟩ := ih hS1 h2
        exact ⟨p1.trans p2, hS2⟩
    · exact one hS h1

end Arc

/-- C57: `split_off_left` and `split_off_right` of an `ArcSlice` return one half, and make `this` the other half: these are all handles that the
thread gets from this call. They never panic. -/
theorem C57_split_off (hP : PTame P) (h : Conf.PReach P zst c) {s : Side} {k : Nat} (hk : c.Sees k (.shared b r.off r.len))
    {res : Except Fault (Nat × Nat)} (run : Runs P W c [k] (splitOffK s k) c' mine' res) :
    ∃ k1 k2, res = .ok (k1, k2) ∧ k1 ≠ k2 ∧ c'.Sees k1 (.shared b (r.half s).off (r.half s).len) ∧
      c'.Sees k2 (.shared b (r.half s.flip).off (r.half s.flip).len) ∧ ∀ k', k' ∈ mine' ↔ k' = k1 ∨ k' = k2 := by
  obtain ⟨k1, k2, h1, h2, o⟩ := run.splitOff_inv hP h (Y := []) (b := b) (r := r)
    ⟨by simp, fun k => by simp, fun k' v hm => by simp at hm; rw [hm.1, hm.2]; exact hk⟩
  refine ⟨k1, k2, h1, ?_, o.sees _ _ (by simp), o.sees _ _ (by simp), fun k' => by rw [o.mem]; simp⟩
  have := o.nodup
  simp at this; exact this

/-- C57: a call of `next` or `next_back` on an `ArcSliceParts` that has been through the calls `w` returns the part that is next at that end of those
that `w` has left of the `2 ^ m` parts. The thread has got the handle to this part, and those in the iterator, which are others. The call never panics. -/
theorem C57_next (hP : PTame P) (h : Life P W zst umax debug b r m c it w) {e : End} {res : Except Fault (Option Nat × BinaryPartsIter Nat)}
    (run : Runs P W c it.deque.items (nextPart umax debug e it) c' mine' res) :
    ∃ o it', res = .ok (o, it') ∧ Life P W zst umax debug b r m c' it' (w ++ [e]) ∧
      (∀ k, k ∈ mine' ↔ o = some k ∨ k ∈ it'.deque.items) ∧ (∀ k, o = some k → k ∉ it'.deque.items) ∧
      match (deqStep e (deqRun w (rparts m r)).2).1 with
        | some q => ∃ k, o = some k ∧ c'.Sees k (.shared b q.off q.len)
        | none => o = none := by
  obtain ⟨f, nb, cap, I⟩ := h.inv hP
  obtain ⟨o, it', f', nb', cap', h1, _, h2⟩ := I.next hP run
  subst h1
  refine ⟨o, it', rfl, .next h run, ?_⟩
  split at h2
  · obtain ⟨k, rfl, h3⟩ := h2
    obtain ⟨ks, rfl, _, ow⟩ := h3.ex
    have hf : (inB b ks).map Prod.fst = ks.map Prod.fst := by simp [inB]
    refine ⟨fun k' => ?_, ?_, ⟨k, rfl, ow.sees k _ (by simp)⟩⟩
    · rw [ow.mem, List.map_append, hf, List.mem_append, Or.comm]; simp [eq_comm]
    · intro k' hk'
      cases hk'
      have h7 := ow.nodup
      rw [List.map_append, hf, List.nodup_append] at h7
      exact fun hh => h7.2.2 k hh k (by simp) rfl
  · obtain ⟨rfl, h3⟩ := h2
    obtain ⟨ks, rfl, _, ow⟩ := h3.ex
    have hf : (inB b ks).map Prod.fst = ks.map Prod.fst := by simp [inB]
    refine ⟨fun k' => ?_, fun _ h => (by cases h), rfl⟩
    rw [ow.mem, List.append_nil, hf]; simp

/-- C57: `clone` of an `ArcSliceParts` gives an iterator with the same history and handles of its own; the old one goes on as before. -/
theorem C57_clone (hP : PTame P) (h : Life P W zst umax debug b r m c it w) {cap : Nat} (hc : it.deque.items.length ≤ cap) (hd : debug = true → it.deque.cap ≤ cap)
    {res : Except Fault (BinaryPartsIter Nat)} (run : Runs P W c it.deque.items (cloneParts cap it) c' mine' res) :
    ∃ it', res = .ok it' ∧ Life P W zst umax debug b r m c' it' w ∧ Life P W zst umax debug b r m c' it w ∧
      (∀ k, k ∈ it'.deque.items → k ∉ it.deque.items) ∧ ∀ k, k ∈ mine' ↔ k ∈ it'.deque.items ∨ k ∈ it.deque.items := by
  obtain ⟨f, nb, cap', I⟩ := h.inv hP
  obtain ⟨it', h1, _, h2⟩ := I.clone hP hd run
  subst h1
  refine ⟨it', rfl, .clone h hc hd run, .env h ?_, h2⟩
  rcases Runs.bind run with ⟨c2, m2, l, e1, run2⟩ | ⟨e, he, _⟩
  · obtain ⟨p1, hS⟩ := Runs.cloneAll_keeps (fun k hk => hk) e1
    cases run2 with
    | ret r2 => exact p1.trans (r2.mono fun c op hp => ⟨hp.1, fun k ht hk => hp.2 k ht (hS k hk)⟩)
  · cases he

/-- C57: at any time, `len` is the number of parts still to come, and `as_slice` is exactly their items. `deref` gives the address and length of
the items that a handle shows. -/
theorem C57_rest (hP : PTame P) (h : Life P W zst umax debug b r m c it w) (C : Ctx) (hC : C.Valid) (hr : InBuf C r) (dangling : Nat) (deref : Nat → RawSlice)
    (hd : ∀ k q, c.Sees k (.shared b q.off q.len) → deref k = raw C q) :
    let rest := (deqRun w (rparts m r)).2
    it.len (m := Except Fault) = .ok rest.length ∧
    ∃ p, it.asSlice C dangling deref = .ok ⟨p, (rest.map Rng.len).sum⟩ ∧ (C.size ≠ 0 → ∀ q, rest.head? = some q → p = C.base + q.off * C.size) := by
  obtain ⟨f, nb, cap, I⟩ := h.inv hP
  obtain ⟨ks, rfl, h2, o⟩ := I.own.ex
  have ht := win_tiles m f nb r I.le
  intro rest
  have hrest : rest = _ := I.left
  refine ⟨?_, if f + nb = 2 ^ m ∨ C.size = 0 then dangling else C.base + cut m f r * C.size, ?_, ?_⟩
  · rw [BinaryPartsIter.len_eq _ (by simpa using I.le), hrest, win_length, parts_length]; rfl
  · have key : ∀ (ks : List (Nat × Rng)), (∀ x ∈ ks, deref x.1 = raw C x.2) →
        BinaryPartsIter.asSlice C dangling deref ⟨2 ^ m, f, nb, ⟨ks.map Prod.fst, cap⟩⟩ =
        BinaryPartsIter.asSlice C dangling id ⟨2 ^ m, f, nb, ⟨(ks.map Prod.snd).map (raw C), cap⟩⟩ := by
      intro ks hks
      have e1 : (ks.map Prod.snd).map (raw C) = (ks.map Prod.fst).map deref := by
        simp only [List.map_map]
        exact List.map_congr_left fun x hx => (hks x hx).symm
      rw [e1]
      generalize ks.map Prod.fst = l
      simp only [BinaryPartsIter.asSlice, List.foldlM_map, List.head?_map, List.getLast?_map, id]
      congr 1; funext n
      split
      · rfl
      · split
        · rfl
        · cases l.head? <;> cases l.getLast? <;> rfl
    rw [key ks (fun x hx => hd _ _ (o.sees _ _ (List.mem_append_left _ (List.mem_map.2 ⟨x, hx, rfl⟩)))), h2, ← raw_pend C m f nb r hr, hrest, ht.sum]
    exact BinaryPartsIter.asSlice_state C hC dangling m f nb cap r hr I.le
  · intro hz q hq
    rw [hrest] at hq
    have hne : f + nb ≠ 2 ^ m := by
      intro h; rw [win_done _ (by rw [parts_length]; omega)] at hq; cases hq
    rw [if_neg (by rintro (h | h) <;> contradiction), ht.head hq]

/-- C57: `split_off_left` and `split_off_right` can come to an end, so that C57_split_off says something in all situations. -/
theorem C57_split_off_ends (hP : PTame P) (hE : Permits P) (h : Conf.PReach P zst c) {s : Side} {k : Nat} (hk : c.Sees k (.shared b r.off r.len)) :
    ∃ c' mine' res, Runs P W c [k] (splitOffK s k) c' mine' res :=
  Ends.splitOff (Y := []) (b := b) (r := r) hP hE h ⟨by simp, fun k => by simp, fun k' v hm => by simp at hm; rw [hm.1, hm.2]; exact hk⟩

/-- C57: so can `next` and `next_back`. -/
theorem C57_next_ends (hP : PTame P) (hE : Permits P) (h : Life P W zst umax debug b r m c it w) (e : End) :
    ∃ c' mine' res, Runs P W c it.deque.items (nextPart umax debug e it) c' mine' res := by
  obtain ⟨f, nb, cap, I⟩ := h.inv hP
  by_cases hfb : f + nb = 2 ^ m
  · obtain ⟨ks, rfl, _⟩ := I.own.ex
    exact Ends.next_done hfb
  · have := I.le
    cases e with
    | front => exact Ends.next hP hE I.reach I.own (by omega)
    | back => exact Ends.nextBack hP hE I.reach I.own (by omega)

/-- C57: and so can `clone` of an `ArcSliceParts`. -/
theorem C57_clone_ends (hP : PTame P) (hE : Permits P) (h : Life P W zst umax debug b r m c it w) (cap : Nat) :
    ∃ c' mine' res, Runs P W c it.deque.items (cloneParts cap it) c' mine' res := by
  obtain ⟨f, nb, cap', I⟩ := h.inv hP
  obtain ⟨ks, rfl, _, o⟩ := I.own.ex
  exact (Ends.cloneAll hP hE I.reach o (fun x hx => List.mem_append_left _ hx)).bind fun _ _ _ _ => .ret _

/-- C57: `split_into_parts` panics unless the number of parts is a power of two. -/
theorem C57_new (k n : Nat) : ((∃ m, n = 2 ^ m) ∧ ∃ it, BinaryPartsIter.new k n = .ok it) ∨ ((¬ ∃ m, n = 2 ^ m) ∧ BinaryPartsIter.new k n = .error .panic) :=
  BinaryPartsIter.new_cases k n

/-! ## Examples -/

namespace Arc

/-- What other threads may do in the examples. -/
def mayDo (M : Conf Nat → Nat → Bool) (c : Conf Nat) (op : Op Nat) : Bool := c.strict op && match op.takes with
  | some k => !M c k
  | none => true

/-- Run a program; for each of its calls, a schedule for what happens before and one for what happens meanwhile. -/
def runProg {β : Type} (c : Conf Nat) (mine : List Nat) : Prog Nat β → List (List (PAct Nat) × List (PAct Nat)) → Option (Conf Nat × List Nat × Except Fault β)
  | _, [] => none
  | .ret b, (as, _) :: _ => match pexec (mayDo fun _ k => mine.contains k) c as with
    | some (.ok c') => some (c', mine, .ok b)
    | _ => none
  | .fault f, (as, _) :: _ => match pexec (mayDo fun _ k => mine.contains k) c as with
    | some (.ok c') => some (c', mine, .error f)
    | _ => none
  | .call op next, (as, bs) :: ss => match pexec (mayDo fun _ k => mine.contains k) c as with
    | some (.ok c0) => match c0.start op with
      | some c1 => match pexec (mayDo fun c k => (mine.contains k && op.takes != some k) || (c.calls[c0.calls.length]?.map (·.out.contains k)).getD false) c1 bs with
        | some (.ok c2) => match c2.calls[c0.calls.length]? with
          | some cl => match cl.pc with
            | .done res => if cl.fin && c0.strict op && (op.on.map mine.contains).getD true then
                runProg c2 (mine.filter (fun k => op.takes ≠ some k) ++ cl.out) (next res cl.out) ss
              else none
            | _ => none
          | none => none
        | _ => none
      | none => none
    | _ => none

def StrictR : Rules Nat := fun c op => c.strict op = true

theorem mayDo_run {M : Conf Nat → Nat → Bool} {M' : Conf Nat → Nat → Prop} (h : ∀ c k, M' c k → M c k = true) {c c' : Conf Nat} {as : List (PAct Nat)}
    (e : pexec (mayDo M) c as = some (.ok c')) : PRun (Others StrictR M') (fun _ _ => True) c c' := by
  refine (pexec_run e).mono fun c op hp => ?_
  simp only [mayDo, Bool.and_eq_true] at hp
  refine ⟨hp.1, fun k hk hm => ?_⟩
  have := hp.2
  rw [hk] at this
  simp [h c k hm] at this

theorem runProg_runs {β : Type} : ∀ {ss : List (List (PAct Nat) × List (PAct Nat))} {c c' : Conf Nat} {mine mine' : List Nat} {p : Prog Nat β} {res : Except Fault β},
    runProg c mine p ss = some (c', mine', res) → Runs StrictR (fun _ _ => True) c mine p c' mine' res := by
  intro ss
  have M : ∀ (mine : List Nat) (c : Conf Nat) (k : Nat), k ∈ mine → mine.contains k = true := fun _ _ _ h => by simpa using h
  induction ss with
  | nil => intro c c' mine mine' p res h; simp [runProg] at h
  | cons s ss ih =>
    obtain ⟨as, bs⟩ := s
    intro c c' mine mine' p res h
    cases p with
    | ret b =>
      simp only [runProg] at h
      split at h
      · next e => cases h; exact .ret (mayDo_run (M mine) e)
      · cases h
    | fault f =>
      simp only [runProg] at h
      split at h
      · next e => cases h; exact .fault (mayDo_run (M mine) e)
      · cases h
    | call op next =>
      simp only [runProg] at h
      split at h
      · next c0 e0 =>
        split at h
        · next c1 e1 =>
          split at h
          · next c2 e2 =>
            split at h
            · next cl e3 =>
              split at h
              · next r e4 =>
                split at h
                · next hc =>
                  simp only [Bool.and_eq_true] at hc
                  refine .call (mayDo_run (M mine) e0) ?_ hc.1.2 e1 (mayDo_run ?_ e2) e3 hc.1.1 e4 (ih h)
                  · intro k hk; have := hc.2; rw [hk] at this; simpa using this
                  · intro c k hk
                    rcases hk with ⟨h1, h2⟩ | ⟨cl, h1, h2⟩
                    · simp [h1, h2]
                    · simp [h1, h2]
                · cases h
              · cases h
            · cases h
          · cases h
        · cases h
      · cases h

/-- The situation after a program. -/
def ran {β : Type} (c : Conf Nat) (mine : List Nat) (p : Prog Nat β) (ss : List (List (PAct Nat) × List (PAct Nat))) : Conf Nat :=
  ((runProg c mine p ss).map Prod.fst).getD (Conf.init false)

theorem runs_of {β : Type} {ss : List (List (PAct Nat) × List (PAct Nat))} {c : Conf Nat} {mine mine' : List Nat} {p : Prog Nat β} {b : β}
    (h : (runProg c mine p ss).map (fun x => (x.2.1, x.2.2.toOption)) = some (mine', some b)) :
    Runs StrictR (fun _ _ => True) c mine p (ran c mine p ss) mine' (.ok b) := by
  unfold ran
  cases hx : runProg c mine p ss with
  | none => rw [hx] at h; cases h
  | some x =>
    obtain ⟨c', m', r⟩ := x
    rw [hx] at h
    cases r with
    | error f => cases h
    | ok b' => cases h; exact runProg_runs hx

deriving instance DecidableEq for Deque
deriving instance DecidableEq for BinaryPartsIter

/-- Another thread has handle 1 to all items. It creates the first half, drops both while the second half is being created, and is done before the whole is dropped. -/
def meddling : List (List (PAct Nat) × List (PAct Nat)) :=
  [([.act (.op (.cloneSide .L 1))], [.act (.run 3 3), .act (.run 2 30), .act (.run 3 30)]),
   ([.act (.op (.drop 2))], [.act (.run 5 4), .act (.run 4 30), .act (.op (.drop 1)), .act (.run 6 30), .act (.run 5 30)]),
   ([], [.act (.run 7 30)]),
   ([], [])]

def quiet (n i : Nat) : List (List (PAct Nat) × List (PAct Nat)) := (List.range n).map fun j => ([], [.act (.run (i + j) 40)])

def it0 : BinaryPartsIter Nat := ⟨4, 0, 0, ⟨[0], 2⟩⟩
def it1 : BinaryPartsIter Nat := ⟨4, 1, 0, ⟨[6, 4], 2⟩⟩
def it2 : BinaryPartsIter Nat := ⟨4, 1, 1, ⟨[6, 7], 2⟩⟩
def it3 : BinaryPartsIter Nat := ⟨4, 1, 1, ⟨[9, 10], 2⟩⟩

/-- Another thread creates the second half, and drops handle 1. -/
def meddling1 : List (List (PAct Nat) × List (PAct Nat)) :=
  ([.act (.op (.cloneSide .R 1))], [.act (.run 2 4), .act (.run 3 40), .act (.run 2 40), .act (.op (.drop 1)), .act (.run 4 40)]) :: quiet 6 5

def parts1 : Conf Nat := ran (pafter twoHandles) [0] (nextPart 1000 true .front it0) meddling1
def parts2 : Conf Nat := ran parts1 [6, 4] (nextPart 1000 true .back it1) (quiet 4 10)
def parts3 : Conf Nat := ran parts2 [6, 7] (cloneParts 2 it2) (quiet 3 13)

theorem StrictR.tame : PTame StrictR := pstrict_strict.tame

theorem StrictR.permits : Permits StrictR := ⟨fun _ _ => rfl, fun _ _ _ => rfl, fun _ _ => rfl, fun _ _ => rfl⟩

theorem sees_of {c : Conf Nat} {k b o l : Nat} (h : (match (c.get k).bind c.seen with | some (.shared b' o' l') => (b', o', l') == (b, o, l) | _ => false) = true) :
    c.Sees k (.shared b o l) := by
  cases hk : c.get k with
  | none => rw [hk] at h; cases h
  | some en =>
    rw [hk] at h
    refine ⟨en, hk, ?_⟩
    cases hs : c.seen en with
    | none => simp [hs] at h
    | some v => cases v <;> simp_all

end Arc

/-- The rules of the examples. -/
example : PTame StrictR ∧ Permits StrictR := ⟨StrictR.tame, StrictR.permits⟩

/-- C57_split_off: handles 3 and 4 are the halves. -/
example : Conf.PReach StrictR false (pafter twoHandles) ∧ (pafter twoHandles).Sees 0 (.shared 0 0 5) ∧
    Runs StrictR (fun _ _ => True) (pafter twoHandles) [0] (splitOffK .L 0) (ran (pafter twoHandles) [0] (splitOffK .L 0) meddling) [3, 4] (.ok (3, 4)) ∧
    (ran (pafter twoHandles) [0] (splitOffK .L 0) meddling).Sees 3 (.shared 0 0 2) ∧ (ran (pafter twoHandles) [0] (splitOffK .L 0) meddling).Sees 4 (.shared 0 2 3) :=
  ⟨pexec_reach (as := twoHandles) .init rfl, sees_of (by decide +kernel), runs_of (by decide +kernel), sees_of (by decide +kernel), sees_of (by decide +kernel)⟩

/-- C57_next, C57_clone, C57_rest: the iterator over four parts yields the first part in spite of another thread, then the last one. Then it is cloned. -/
example : Life StrictR (fun _ _ => True) false 1000 true 0 ⟨0, 5⟩ 2 (pafter twoHandles) it0 [] ∧
    Life StrictR (fun _ _ => True) false 1000 true 0 ⟨0, 5⟩ 2 parts1 it1 [.front] ∧
    Life StrictR (fun _ _ => True) false 1000 true 0 ⟨0, 5⟩ 2 parts2 it2 [.front, .back] ∧
    Life StrictR (fun _ _ => True) false 1000 true 0 ⟨0, 5⟩ 2 parts3 it3 [.front, .back] ∧
    parts1.Sees 5 (.shared 0 0 1) ∧ parts2.Sees 8 (.shared 0 3 2) ∧ parts3.Sees 10 (.shared 0 2 1) := by
  have h0 : Life StrictR (fun _ _ => True) false 1000 true 0 ⟨0, 5⟩ 2 (pafter twoHandles) it0 [] :=
    .new (k := 0) (pexec_reach (as := twoHandles) .init rfl) (sees_of (by decide +kernel)) (by decide) (by rw [BinaryPartsIter.new_pow 0 2 id id]; rfl)
  have h1 : Life StrictR (fun _ _ => True) false 1000 true 0 ⟨0, 5⟩ 2 parts1 it1 [.front] :=
    .next (mine := [4, 5, 6]) (o := some 5) h0 (runs_of (by decide +kernel))
  have h2 : Life StrictR (fun _ _ => True) false 1000 true 0 ⟨0, 5⟩ 2 parts2 it2 [.front, .back] :=
    .next (mine := [6, 7, 8]) (o := some 8) h1 (runs_of (by decide +kernel))
  have h3 : Life StrictR (fun _ _ => True) false 1000 true 0 ⟨0, 5⟩ 2 parts3 it3 [.front, .back] :=
    .clone (mine := [6, 7, 9, 10]) (cap := 2) h2 (by decide) (by decide) (runs_of (by decide +kernel))
  exact ⟨h0, h1, h2, h3, sees_of (by decide +kernel), sees_of (by decide +kernel), sees_of (by decide +kernel)⟩

/-- The address of item `j` is `100 + 8 * j`. -/
example : (⟨8, 1000, 100, 5⟩ : Ctx).Valid ∧ InBuf ⟨8, 1000, 100, 5⟩ ⟨0, 5⟩ := ⟨⟨by decide, by decide⟩, by decide⟩

end Verif

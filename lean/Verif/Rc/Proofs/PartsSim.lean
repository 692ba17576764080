import Verif.Rc.Proofs.PartsLoop
/-!
# Programs with iterators over shared parts
-/

namespace Verif

/-- `as_slice` only uses the pointers and lengths of the elements. -/
theorem BinaryPartsIter.asSlice_map {S : Type} (C : Ctx) (d : Nat) (g : S → RawSlice) (it : BinaryPartsIter S) :
    it.asSlice C d g = (BinaryPartsIter.mk it.numParts it.numYieldedFront it.numYieldedBack ⟨it.deque.items.map g, it.deque.cap⟩).asSlice C d id := by
  unfold BinaryPartsIter.asSlice
  simp only [List.foldlM_map, List.head?_map, List.getLast?_map, id]
  have : (BinaryPartsIter.mk it.numParts it.numYieldedFront it.numYieldedBack (⟨it.deque.items.map g, it.deque.cap⟩ : Deque RawSlice)).len (m := Except Fault) =
    it.len (m := Except Fault) := rfl
  rw [this]
  congr 1; funext n
  split
  · rfl
  · split
    · rfl
    · cases it.deque.items.head? <;> cases it.deque.items.getLast? <;> rfl

end Verif

namespace Verif.Rc
open Verif.Spec (Side Slot Family Rng Hand World Op Obs End parts)
variable {α : Type} {umax : Nat} {zst : Bool}

section
variable {s : State α} {w : World α}

theorem place_ok (R : Rel umax s w []) {k f : Nat} {p : List Side} (hk : w.get k = some (.shared f p)) :
    place umax s k = .ok ((w.fam f).buf, (w.rangeOf f p).off, (w.rangeOf f p).len) := by
  rcases R.at_ k with ⟨_, e⟩ | ⟨x, y, e1, e2, hr⟩
  · rw [hk] at e; cases e
  · rw [hk] at e2; cases e2
    rcases handleRange_ok R e1 hr with ⟨_, h⟩ | ⟨b, r, h1, h2, _⟩
    · cases h
    · simp only [World.view, Option.some.injEq, Prod.mk.injEq] at h2
      obtain ⟨rfl, rfl⟩ := h2
      simp only [place, e1, h1]

theorem strong_shared (R : Rel umax s w []) {k d i : Nat} (hk : s.get k = some (.strong d i)) : ∃ f p, w.get k = some (.shared f p) := by
  rcases R.at_ k with ⟨e, _⟩ | ⟨x, y, e1, e2, hr⟩
  · rw [hk] at e; cases e
  · rw [hk] at e1; cases e1; cases hr; exact ⟨_, _, e2⟩

theorem shared_strong (R : Rel umax s w []) {k f : Nat} {p : List Side} (hk : w.get k = some (.shared f p)) : ∃ d i, s.get k = some (.strong d i) := by
  rcases R.at_ k with ⟨_, e⟩ | ⟨x, y, e1, e2, hr⟩
  · rw [hk] at e; cases e
  · rw [hk] at e2; cases e2; cases hr; exact ⟨_, _, e1⟩

/-- The parts of a member are the parts of its range. -/
theorem rangeOf_parts (w : World α) (fam : Nat) (m : Nat) (q : List Side) :
    rparts m (w.rangeOf fam q) = (parts (w.halfPath fam · .L) (w.halfPath fam · .R) m q).map (w.rangeOf fam) :=
  map_parts (w.rangeOf fam) (fun _ => True) _ _ _ _ (fun p _ => (World.rangeOf_half w fam p .L).symm) (fun p _ => (World.rangeOf_half w fam p .R).symm)
    (fun _ _ => trivial) (fun _ _ => trivial) m q trivial

theorem rangeOf_pend (w : World α) (fam : Nat) (m f b : Nat) (q : List Side) :
    pend Rng.left Rng.right m f b (w.rangeOf fam q) = (pend (w.halfPath fam · .L) (w.halfPath fam · .R) m f b q).map (w.rangeOf fam) :=
  map_pend (w.rangeOf fam) (fun _ => True) _ _ _ _ (fun p _ => (World.rangeOf_half w fam p .L).symm) (fun p _ => (World.rangeOf_half w fam p .R).symm)
    (fun _ _ => trivial) (fun _ _ => trivial) m f b q trivial

/-- The range a member of a family stands for lies in the buffer. -/
theorem Rel.fam_in (R : Rel umax s w []) {fam : Nat} (h : fam < w.fams.length) (q : List Side) :
    (w.rangeOf fam q).off + (w.rangeOf fam q).len ≤ s.h.sk.blen (w.fam fam).buf := by
  have hf : fam < s.h.sk.nfam := by rw [← R.core.nfam]; exact h
  have h1 := (R.core.rng_le (R.core.famIn fam hf)).1
  rw [← R.core.fams fam hf] at h1
  have : ∀ (r : Rng) (q : List Side), (r.at q).off + (r.at q).len ≤ r.off + r.len := by
    intro r q
    induction q with
    | nil => exact Nat.le_refl _
    | cons t q ih =>
      simp only [Rng.at]
      cases t <;> simp only [Rng.half, Rng.left, Rng.right] <;> omega
  exact Nat.le_trans (this _ q) h1

/-- The items the iterator still has, as a range. -/
theorem iterRange_ok (R : Rel umax s w []) {it : BinaryPartsIter Nat} {fam m f b : Nat} {q : List Side} (I : ItAt umax w fam q m f b it) :
    iterRange umax s it = .ok (if f + b = 2 ^ m then none else
      some ((w.fam fam).buf, cut m f (w.rangeOf fam q), cut m (2 ^ m - b) (w.rangeOf fam q) - cut m f (w.rangeOf fam q))) := by
  obtain ⟨np, nf, nb, ⟨ks, cap⟩⟩ := it
  obtain ⟨i1, i2, i3, i4, i5, i8, i6⟩ := I
  simp only at i1 i2 i3 i6
  subst i1 i2 i3
  unfold iterRange
  by_cases hfb : nf + nb = 2 ^ m
  · rw [pend_full _ _ _ _ _ _ hfb] at i6
    have : ks = [] := by simpa [Ats] using i6
    subst this
    have hl : (BinaryPartsIter.mk (2 ^ m) nf nb (⟨[], cap⟩ : Deque Nat)).len (m := Except Fault) = .ok 0 := by
      rw [BinaryPartsIter.len_eq _ (by simp; omega)]; simp [← hfb]; rfl
    simp only [BinaryPartsIter.asSlice, hl, bind, Except.bind, if_true, noFault, pure, Except.pure, hfb]
  · obtain ⟨j, x, rest, h1, -⟩ := pend_front (w.halfPath fam · .L) (w.halfPath fam · .R) m nf nb q (by omega)
    have hr := rangeOf_pend w fam m nf nb q
    have ht := pend_tiles m nf nb (w.rangeOf fam q) i4
    have hin : InBuf (partsCtx s.h.sk.zst umax (s.h.sk.blen (w.fam fam).buf)) (w.rangeOf fam q) := R.fam_in i8 q
    have hC : (partsCtx s.h.sk.zst umax (s.h.sk.blen (w.fam fam).buf)).Valid := by
      have := R.core.blen (w.fam fam).buf
      constructor
      · simp only [partsCtx]; split <;> omega
      · exact this
    have hpl : ∀ k ∈ ks, ∃ r : Rng, place umax s k = .ok ((w.fam fam).buf, r.off, r.len) := by
      intro k hk
      obtain ⟨p, _, e⟩ := i6.mem hk
      exact ⟨_, place_ok R e⟩
    have hmap : ks.map (rawOf (partsCtx s.h.sk.zst umax (s.h.sk.blen (w.fam fam).buf)) umax s) =
        (pend Rng.left Rng.right m nf nb (w.rangeOf fam q)).map (raw (partsCtx s.h.sk.zst umax (s.h.sk.blen (w.fam fam).buf))) := by
      rw [hr]
      have : ∀ (ks : List Nat) (ps : List (List Side)), Ats w fam ks ps →
          ks.map (rawOf (partsCtx s.h.sk.zst umax (s.h.sk.blen (w.fam fam).buf)) umax s) =
            (ps.map (w.rangeOf fam)).map (raw (partsCtx s.h.sk.zst umax (s.h.sk.blen (w.fam fam).buf))) := by
        intro ks
        induction ks with
        | nil => intro ps h; cases ps with
          | nil => rfl
          | cons => simp [Ats] at h
        | cons k ks ih => intro ps h; cases ps with
          | nil => simp [Ats] at h
          | cons p ps =>
            simp only [Ats, List.map_cons, List.cons.injEq] at h
            simp only [List.map_cons, ih ps h.2, rawOf, place_ok R h.1, raw]
      exact this _ _ i6
    cases ks with
    | nil => rw [h1] at i6; simp [Ats] at i6
    | cons k ks =>
      have hk : w.get k = some (.shared fam x) := by rw [h1] at i6; simp only [Ats, List.map_cons, List.cons.injEq] at i6; exact i6.1
      have ha := BinaryPartsIter.asSlice_state (partsCtx s.h.sk.zst umax (s.h.sk.blen (w.fam fam).buf)) hC 0 m nf nb cap (w.rangeOf fam q) hin i4
      have ha2 : (BinaryPartsIter.mk (2 ^ m) nf nb (⟨k :: ks, cap⟩ : Deque Nat)).asSlice (partsCtx s.h.sk.zst umax (s.h.sk.blen (w.fam fam).buf)) 0
          (rawOf (partsCtx s.h.sk.zst umax (s.h.sk.blen (w.fam fam).buf)) umax s) = .ok
            ⟨if nf + nb = 2 ^ m ∨ (partsCtx s.h.sk.zst umax (s.h.sk.blen (w.fam fam).buf)).size = 0 then 0 else
              (partsCtx s.h.sk.zst umax (s.h.sk.blen (w.fam fam).buf)).base + cut m nf (w.rangeOf fam q) * (partsCtx s.h.sk.zst umax (s.h.sk.blen (w.fam fam).buf)).size,
              cut m (2 ^ m - nb) (w.rangeOf fam q) - cut m nf (w.rangeOf fam q)⟩ := by
        rw [← ha, BinaryPartsIter.asSlice_map]
        simp only [hmap, BinaryPartsIter.state, raw_pend _ m nf nb _ hin]
      have hbs : (ks.mapM fun k => (do let (b', _, _) ← place umax s k; pure b' : Except UB Nat)) = .ok (ks.map fun _ => (w.fam fam).buf) := by
        have : ∀ ks : List Nat, (∀ k ∈ ks, ∃ r : Rng, place umax s k = .ok ((w.fam fam).buf, r.off, r.len)) →
            (ks.mapM fun k => (do let (b', _, _) ← place umax s k; pure b' : Except UB Nat)) = .ok (ks.map fun _ => (w.fam fam).buf) := by
          intro ks
          induction ks with
          | nil => intro _; rfl
          | cons k ks ih =>
            intro h
            obtain ⟨r, hr⟩ := h k (by simp)
            rw [List.mapM_cons, ih fun k hk => h k (by simp [hk]), hr]; rfl
        exact this ks fun k' h' => hpl k' (by simp [h'])
      have hoff : (w.rangeOf fam x).off = cut m nf (w.rangeOf fam q) := by
        apply ht.head
        rw [hr, h1]; rfl
      simp only [place_ok R hk, bind, Except.bind] at hbs ⊢
      simp only [hbs]
      rw [if_pos (by simp)]
      simp only [ha2, noFault, pure, Except.pure, if_neg hfb, Except.ok.injEq, Option.some.injEq, Prod.mk.injEq, true_and, and_true]
      by_cases hz : s.h.sk.zst = true
      · rw [if_pos hz, hoff]
      · rw [if_neg hz, if_neg (by simp [hfb, partsCtx, hz])]
        simp [partsCtx, hz]

/-- An item is among the remaining ones iff it lies in an element of the deque. -/
theorem ItAt.has_iff {it : BinaryPartsIter Nat} {fam m f b : Nat} {q : List Side} (I : ItAt umax w fam q m f b it) (i : Nat) :
    (cut m f (w.rangeOf fam q) ≤ i ∧ i < cut m (2 ^ m - b) (w.rangeOf fam q)) ↔
      ∃ k ∈ it.deque.items, ∃ p, w.get k = some (.shared fam p) ∧ (w.rangeOf fam p).has i = true := by
  rw [← (pend_tiles m f b (w.rangeOf fam q) I.le).any_has i, rangeOf_pend, List.any_eq_true]
  have h := I.at_
  constructor
  · rintro ⟨r, hr, hi⟩
    obtain ⟨p, hp, rfl⟩ := List.mem_map.1 hr
    have : some (Hand.shared fam p) ∈ it.deque.items.map w.get := by rw [h]; exact List.mem_map.2 ⟨p, hp, rfl⟩
    obtain ⟨k, hk, e⟩ := List.mem_map.1 this
    exact ⟨k, hk, p, e, hi⟩
  · rintro ⟨k, hk, p, e, hi⟩
    obtain ⟨p', hp', e'⟩ := h.mem hk
    rw [e] at e'; cases e'
    exact ⟨_, List.mem_map.2 ⟨p, hp', rfl⟩, hi⟩

/-- The remaining items can be read. -/
theorem iter_read (R : Rel umax s w []) {it : BinaryPartsIter Nat} {fam m f b : Nat} {q : List Side} (I : ItAt umax w fam q m f b it) :
    readRange s.h (w.fam fam).buf (cut m f (w.rangeOf fam q)) (cut m (2 ^ m - b) (w.rangeOf fam q) - cut m f (w.rangeOf fam q)) =
      .ok (w.look (w.fam fam).buf ⟨cut m f (w.rangeOf fam q), cut m (2 ^ m - b) (w.rangeOf fam q) - cut m f (w.rangeOf fam q)⟩) := by
  have key : ∀ i, cut m f (w.rangeOf fam q) ≤ i → i < cut m (2 ^ m - b) (w.rangeOf fam q) →
      s.h.accessible (w.fam fam).buf = true ∧ ∃ a, s.h.slot (w.fam fam).buf i = .live a := by
    intro i h1 h2
    obtain ⟨k, _, p, e, hi⟩ := (I.has_iff i).1 ⟨h1, h2⟩
    simp only [Rng.has, Bool.and_eq_true, decide_eq_true_eq] at hi
    rcases R.at_ k with ⟨_, e'⟩ | ⟨x, y, e1, e2, hr⟩
    · rw [e] at e'; cases e'
    · rw [e] at e2; cases e2
      rcases handleRange_ok R e1 hr with ⟨_, h⟩ | ⟨b, r, _, h5, h3, h4⟩
      · cases h
      · simp only [World.view, Option.some.injEq, Prod.mk.injEq] at h5
        obtain ⟨rfl, rfl⟩ := h5
        exact ⟨h3 (by omega), h4 i hi.1 hi.2⟩
  obtain ⟨h5, _⟩ := readRange_ok (h := s.h) (b := (w.fam fam).buf) (off := cut m f (w.rangeOf fam q))
    (len := cut m (2 ^ m - b) (w.rangeOf fam q) - cut m f (w.rangeOf fam q))
    (fun h => (key (cut m f (w.rangeOf fam q)) (Nat.le_refl _) (by omega)).1)
    (fun j h1 h2 => (key j h1 (by omega)).2)
  rw [h5, look_eq R.core]

/-! ## Cloning and dropping iterators -/

theorem dropAll_sim (ks : List Nat) : ∀ {s : State α} {w : World α}, Rel umax s w [] →
    ∃ s', dropAll umax s ks = .ok s' ∧ run umax s (ks.map .drop) = .ok (s', (w.run umax (ks.map .drop)).2) ∧
      Rel umax s' (w.run umax (ks.map .drop)).1 [] := by
  induction ks with
  | nil => intro s w R; exact ⟨s, rfl, rfl, R⟩
  | cons k ks ih =>
    intro s w R
    obtain ⟨s1, o, e1, R1, rfl⟩ := call_sim R (.drop k)
    obtain ⟨s2, e2, e3, R2⟩ := ih R1
    refine ⟨s2, ?_, ?_, R2⟩
    · simp only [dropAll, e1, bind, Except.bind, e2]
    · simp only [List.map_cons, run, e1, bind, Except.bind, e3]; rfl

/-- One clone. -/
theorem clone_step (R : Rel umax s w []) {k f : Nat} {p : List Side} (hk : w.get k = some (.shared f p)) :
    ∃ s' w', call umax s (.clone k) = .ok (s', .handle) ∧ w' = (w.call umax (.clone k)).1 ∧ Mv umax s w [k] s' w' ∧
      (∀ k', k' < w.hs.length → w'.get k' = w.get k') ∧ w'.get w.hs.length = some (.shared f p) ∧ w'.hs.length = w.hs.length + 1 := by
  obtain ⟨s', o, e, R', ho⟩ := call_sim R (.clone k)
  have ea : w.act umax (.clone k) = (w.push (.shared f p), .handle) := by simp only [World.act, hk]
  have ho' : o = .handle := by rw [ho]; simp only [World.call, ea]
  subst ho'
  have hg : ∀ k', (w.call umax (.clone k)).1.get k' = (w.push (.shared f p)).get k' := by
    intro k'; simp only [World.call, ea, World.settle_get]
  have hfam : (w.call umax (.clone k)).1.fams = w.fams := by simp only [World.call, ea]; rfl
  have keep := settle_same R rfl (w' := (w.act umax (.clone k)).1) (by rw [ea]; rfl) (by rw [ea]; rfl)
    (by
      rintro b i ⟨k', y, h1, h2⟩
      refine ⟨k', y, by rw [ea]; exact World.get_push_some h1, ?_⟩
      rw [ea]; cases y <;> exact h2)
    (by
      rintro b ⟨k', y, h1, h2⟩
      refine ⟨k', y, by rw [ea]; exact World.get_push_some h1, ?_⟩
      rw [ea]; cases y <;> exact h2)
  have hl : (w.call umax (.clone k)).1.hs.length = w.hs.length + 1 := by
    simp only [World.call, ea]; simp [World.settle, World.push]
  have hsame : ∀ k', k' < w.hs.length → (w.call umax (.clone k)).1.get k' = w.get k' := by
    intro k' h; rw [hg, World.get_push_lt h]
  refine ⟨s', _, e, rfl, ⟨⟨[_], [_], run_one e, rfl, by simp [Op.on]⟩, R', fun k' h _ => hsame k' h, hfam, by omega, keep.1, keep.2⟩, hsame, ?_, hl⟩
  · rw [hg, World.get_push_self]

theorem cloneAll_sim (fam : Nat) (ks : List Nat) : ∀ {s : State α} {w : World α} {ps : List (List Side)}, Rel umax s w [] → Ats w fam ks ps →
    ∃ s' w', cloneAll umax s ks = .ok (s', List.range' w.hs.length ks.length) ∧ Mv umax s w ks s' w' ∧
      (∀ k', k' < w.hs.length → w'.get k' = w.get k') ∧ Ats w' fam (List.range' w.hs.length ks.length) ps ∧ w'.hs.length = w.hs.length + ks.length := by
  induction ks with
  | nil =>
    intro s w ps R h
    exact ⟨s, w, rfl, .refl R _, fun _ _ => rfl, by simpa [Ats] using h, rfl⟩
  | cons k ks ih =>
    intro s w ps R h
    cases ps with
    | nil => simp [Ats] at h
    | cons p ps =>
      simp only [Ats, List.map_cons, List.cons.injEq] at h
      obtain ⟨hk, hks⟩ := h
      obtain ⟨s1, w1, e1, ew1, M1, k1, g1, l1⟩ := clone_step R hk
      have hks' : Ats w1 fam ks ps := Ats.frame (w := w) hks fun k' h => k1 k' (Ats.lt (w := w) hks h)
      obtain ⟨s2, w2, e2, M2, k2, a2, l2⟩ := ih M1.rel hks'
      refine ⟨s2, w2, ?_, (M1.mono (by simp)).trans M2 (fun k h => .inl (by simp [h])), fun k' h => by rw [k2 k' (by omega), k1 k' h], ?_, by simp only [List.length_cons]; omega⟩
      · simp only [cloneAll, e1, bind, Except.bind, e2, pure, Except.pure, R.hs_len, l1, List.length_cons, List.range'_succ]
      · simp only [List.length_cons, List.range'_succ, Ats, List.map_cons, List.cons.injEq]
        rw [l1] at a2
        exact ⟨by rw [k2 _ (by omega)]; exact g1, a2⟩

end
end Verif.Rc
